import Verif.Lemmas.ReparametrizationSerial
import Verif.Lemmas.FactorBest
import Verif.Lemmas.Functions
/-
getArcConsistency.
-/
namespace OpenGM.Repa
open Spec
open scoped BigOperators
variable {V : Type} [CommRing V] [LinearOrder V]

/-- The hypotheses on the accumulation and the values. -/
structure Values (acc : Acc V) (p : Problem V) : Prop where
  order : StrictOrder acc.bop
  total : ∀ a b, acc.bop a b = false → acc.bop b a = false → a = b
  beats : ∀ t ∈ p.terms, ∀ c, InShape (restrict p.numLabels t.vars) c → acc.bop (t.table c) acc.neutral = true
  positive : ∀ n ∈ p.numLabels, 0 < n
  nonempty : ∀ t ∈ p.terms, t.vars ≠ []

/-- What the first loop knows of a term. -/
structure InfoOk (acc : Acc V) (p : Problem V) (t : Term V) (info : FactorInfo V) : Prop where
  shape : InShape (restrict p.numLabels t.vars) info.labels
  value : t.table info.labels = info.value
  best : ∀ c, InShape (restrict p.numLabels t.vars) c → acc.bop (t.table c) info.value = false
  worst : t.vars.length ≠ 1 → ∃ c, InShape (restrict p.numLabels t.vars) c ∧ info.worst = t.table c

section
variable {gm : GM V} {p : Problem V} {acc : Acc V}

theorem callFactor_rest (hr : Stores gm p) {fr : FactorRec} {t : Term V} (hm : FactorMatches gm fr t) {c : List Nat}
    (hc : InShape (restrict p.numLabels t.vars) c) (hne : t.vars ≠ []) (rest : List Nat) : gm.callFactor fr (c ++ rest) = some (t.table c) := by
  obtain ⟨fn, h1, h2, h3⟩ := hm.fn
  have hin : InShape fn.shape c := by rw [h2, hr.labels]; exact hc
  unfold GM.callFactor
  rw [h1]
  simp only [callFn]
  rw [← h3 _ hin]
  cases hsh : fn.shape with
  | nil =>
    rw [hsh] at h2
    exact absurd (List.map_eq_nil_iff.mp h2.symm) hne
  | cons n sh =>
    simp only [← hsh]
    rw [inShape_of_InShape _ _ _ hin, if_pos rfl, ← InShape_length _ _ hin, List.take_left']
    rfl

theorem inShape_labels (L : Nat → Nat) (x : Nat → Nat) : ∀ vs : List Nat, InShape (vs.map L) (vs.map x) ↔ Spec.Labels L vs x
  | [] => by simp [InShape, Spec.Labels]
  | v :: vs => by
    simp only [List.map_cons, InShape, inShape_labels L x vs, Spec.Labels, List.mem_cons, forall_eq_or_imp]

theorem tuple_map {vs c : List Nat} (hnd : vs.Nodup) (hl : c.length = vs.length) : vs.map (fun v => c.getD (vs.idxOf v) 0) = c := by
  apply List.ext_getElem
  · simp [hl]
  · intro i h1 h2
    simp only [List.length_map] at h1
    simp only [List.getElem_map]
    rw [hnd.idxOf_getElem i h1]
    simp [List.getD_eq_getElem?_getD, h2]

theorem positive_shape (hv : Values acc p) (hs : Stores gm p) {f : FactorRec} {t : Term V} (hm : FactorMatches gm f t) : ∀ v ∈ t.vars, 0 < p.numLabels.getD v 0 := by
  intro v h
  have hr := hm.range v h
  rw [hs.labels] at hr
  rw [List.getD_eq_getElem?_getD, List.getElem?_eq_getElem hr]
  exact hv.positive _ (List.getElem_mem hr)

theorem operand_spec (hs : Stores gm p) {f : FactorRec} {t : Term V} (hm : FactorMatches gm f t) : operand gm f = some ⟨restrict p.numLabels t.vars, gm.callFactor f⟩ := by
  unfold operand
  rw [hm.visSize, viewShape_spec hs hm t.vars.length 0 (by omega), List.drop_zero]
  rfl

theorem accumulate_spec (hv : Values acc p) (hs : Stores gm p) {f : FactorRec} {t : Term V} (ht : t ∈ p.terms) (hm : FactorMatches gm f t) :
    ∃ value opt, FactorOps.accumulateAllState acc.bop (FactorOps.minOp acc.bop) acc.neutral ⟨restrict p.numLabels t.vars, gm.callFactor f⟩ = some (value, opt) ∧
      InShape (restrict p.numLabels t.vars) opt ∧ t.table opt = value ∧ ∀ c, InShape (restrict p.numLabels t.vars) c → acc.bop (t.table c) value = false := by
  have hnd : t.vars.Nodup := hm.sorted.imp (fun h => Nat.ne_of_lt h)
  have hrestr : restrict p.numLabels t.vars = t.vars.map (fun v => p.numLabels.getD v 0) := rfl
  obtain ⟨opt, value, e1, e2, e3, e4⟩ := FactorOps.accumulateAllState_min hv.order hv.total (neutral := acc.neutral) (L := fun v => p.numLabels.getD v 0) (vs := t.vars)
    (f := fun x => t.table (t.vars.map x)) (a := ⟨restrict p.numLabels t.vars, gm.callFactor f⟩)
    ⟨rfl, fun x hx rest => callFactor_rest hs hm (by rw [hrestr, inShape_labels]; exact hx) (hv.nonempty t ht) rest⟩ hnd (positive_shape hv hs hm)
    (fun x hx => hv.beats t ht _ (by rw [hrestr, inShape_labels]; exact hx))
  refine ⟨value, opt, e1, e2, ?_, ?_⟩
  · have hl := InShape_length _ _ e2
    simp only [List.length_map] at hl
    have := e3 (fun v => opt.getD (t.vars.idxOf v) 0) (tuple_map hnd hl)
    simp only [tuple_map hnd hl] at this
    exact this
  · intro c hc
    have hl := InShape_length _ _ hc
    simp only [restrict, List.length_map] at hl
    have hmap := tuple_map hnd hl
    have := e4 (fun v => c.getD (t.vars.idxOf v) 0) (by rw [← inShape_labels, hmap]; exact hc)
    simp only [hmap] at this
    exact this

theorem worst_spec (hv : Values acc p) (hs : Stores gm p) {f : FactorRec} {t : Term V} (ht : t ∈ p.terms) (hm : FactorMatches gm f t) :
    ∃ w, worstValue acc ⟨restrict p.numLabels t.vars, gm.callFactor f⟩ = some w ∧ ∃ c, InShape (restrict p.numLabels t.vars) c ∧ w = t.table c := by
  have hp : Positive (restrict p.numLabels t.vars) := by
    intro n hn
    obtain ⟨v, h1, rfl⟩ := List.mem_map.mp hn
    exact positive_shape hv hs hm v h1
  have hd : Functions.Denotes (⟨restrict p.numLabels t.vars, (restrict p.numLabels t.vars).foldl (· * ·) 1, gm.callFactor f⟩ : Functions.Fun V) (restrict p.numLabels t.vars) t.table :=
    ⟨rfl, by rw [List.prod_eq_foldl], fun c hc => DP.callFactor_at hs hm hc (hv.nonempty t ht)⟩
  unfold worstValue
  simp only
  split
  · obtain ⟨m, e1, ⟨c, hc, e2⟩, _⟩ := Functions.max_spec hp hd
    exact ⟨m, e1, c, hc, e2.symm⟩
  · obtain ⟨m, e1, ⟨c, hc, e2⟩, _⟩ := Functions.min_spec hp hd
    exact ⟨m, e1, c, hc, e2.symm⟩

theorem firstLoop_spec (hv : Values acc p) (hs : Stores gm p) : ∀ (fs : List FactorRec) (ts : List (Term V)) (j : Nat) (labels : List Nat), List.Forall₂ (FactorMatches gm) fs ts → (∀ t ∈ ts, t ∈ p.terms) →
    p.Labeling labels →
    ∃ infos labels' unary, firstLoop acc gm j fs labels = some (infos, labels', unary) ∧ List.Forall₂ (InfoOk acc p) ts infos ∧ p.Labeling labels' ∧
      (∀ u, u ∈ unary ↔ ∃ i t, u = j + i ∧ ts[i]? = some t ∧ t.vars.length = 1) ∧
      (∀ v : Nat, (∀ t ∈ ts, t.vars ≠ [v]) → labels'[v]? = labels[v]?) ∧
      (∀ (v i : Nat) t info, ts[i]? = some t → infos[i]? = some info → t.vars = [v] → (∀ (i' : Nat) t', ts[i']? = some t' → t'.vars = [v] → i' = i) → labels'[v]? = info.labels[0]?)
  | [], _, j, labels, h, _, hl => by
    cases h
    exact ⟨[], labels, [], rfl, .nil, hl, by simp, by simp, by simp⟩
  | f :: fs, _, j, labels, h, hmem, hl => by
    cases h with
    | @cons _ t _ ts hm h =>
    have ht := hmem t (by simp)
    obtain ⟨value, opt, a1, a2, a3, a4⟩ := accumulate_spec hv hs ht hm
    have hlen := InShape_length _ _ a2
    simp only [restrict, List.length_map] at hlen
    unfold firstLoop
    rw [operand_spec hs hm]
    simp only
    rw [a1]
    simp only
    rw [hm.visSize]
    by_cases h1 : t.vars.length = 1
    · obtain ⟨v, hvv⟩ := List.length_eq_one_iff.mp h1
      obtain ⟨l, rfl⟩ := List.length_eq_one_iff.mp (hlen.trans h1)
      have hvr := hm.range v (by rw [hvv]; simp)
      rw [hs.labels] at hvr
      have hl' : p.Labeling (labels.set v l) := by
        refine ⟨by rw [List.length_set]; exact hl.1, ?_⟩
        intro w a n hw hn
        by_cases hwv : v = w
        · subst hwv
          rw [List.getElem?_set_self (by rw [hl.1]; exact hvr)] at hw
          cases hw
          rw [hvv] at a2
          simp only [restrict, List.map_cons, List.map_nil, InShape, and_true] at a2
          rw [List.getD_eq_getElem?_getD, hn] at a2
          exact a2
        · rw [List.getElem?_set_ne hwv] at hw
          exact hl.2 w a n hw hn
      obtain ⟨infos, labels', unary, e1, e2, e3, e4, e5, e6⟩ := firstLoop_spec hv hs fs ts (j + 1) (labels.set v l) h (fun t' ht' => hmem t' (by simp [ht'])) hl'
      rw [if_pos h1, hm.visAt 0 (by rw [hm.visSize]; omega), hvv]
      simp only [List.getElem?_cons_zero]
      rw [if_pos (by rw [hl.1]; exact hvr), e1]
      refine ⟨_, _, _, rfl, .cons ⟨a2, a3, a4, fun h => absurd h1 h⟩ e2, e3, ?_, ?_, ?_⟩
      · intro u
        rw [List.mem_cons, e4]
        constructor
        · rintro (rfl | ⟨i, t', rfl, h3, h4⟩)
          · exact ⟨0, t, by simp, by simp, h1⟩
          · exact ⟨i + 1, t', by omega, by simpa using h3, h4⟩
        · rintro ⟨i, t', rfl, h3, h4⟩
          cases i with
          | zero => left; omega
          | succ i => right; exact ⟨i, t', by omega, by simpa using h3, h4⟩
      · intro w hw
        rw [e5 w (fun t' ht' => hw t' (by simp [ht']))]
        have : v ≠ w := by
          intro h'
          subst h'
          exact hw t (by simp) hvv
        rw [List.getElem?_set_ne this]
      · intro w i t' info h3 h4 h5 h6
        cases i with
        | zero =>
          simp only [List.getElem?_cons_zero, Option.some.injEq] at h3 h4
          subst h3 h4
          rw [hvv] at h5
          simp only [List.cons.injEq, and_true] at h5
          subst h5
          rw [e5 v]
          · rw [List.getElem?_set_self (by rw [hl.1]; exact hvr)]
            rfl
          · intro t'' ht'' h7
            obtain ⟨i, hi, rfl⟩ := List.getElem_of_mem ht''
            have := h6 (i + 1) ts[i] (by simp [hi]) h7
            omega
        | succ i =>
          simp only [List.getElem?_cons_succ] at h3 h4
          apply e6 w i t' info h3 h4 h5
          intro i' t'' h7 h8
          have := h6 (i' + 1) t'' (by simpa using h7) h8
          omega
    · obtain ⟨w, b1, b2⟩ := worst_spec hv hs ht hm
      obtain ⟨infos, labels', unary, e1, e2, e3, e4, e5, e6⟩ := firstLoop_spec hv hs fs ts (j + 1) labels h (fun t' ht' => hmem t' (by simp [ht'])) hl
      rw [if_neg h1, b1, e1]
      refine ⟨_, _, _, rfl, .cons ⟨a2, a3, a4, fun _ => b2⟩ e2, e3, ?_, ?_, ?_⟩
      · intro u
        rw [e4]
        constructor
        · rintro ⟨i, t', rfl, h3, h4⟩
          exact ⟨i + 1, t', by omega, by simpa using h3, h4⟩
        · rintro ⟨i, t', rfl, h3, h4⟩
          cases i with
          | zero =>
            simp only [List.getElem?_cons_zero, Option.some.injEq] at h3
            subst h3
            exact absurd h4 h1
          | succ i => exact ⟨i, t', by omega, by simpa using h3, h4⟩
      · intro w hw
        exact e5 w (fun t' ht' => hw t' (by simp [ht']))
      · intro w i t' info h3 h4 h5 h6
        cases i with
        | zero =>
          simp only [List.getElem?_cons_zero, Option.some.injEq] at h3
          subst h3
          rw [h5] at h1
          exact absurd rfl h1
        | succ i =>
          simp only [List.getElem?_cons_succ] at h3 h4
          apply e6 w i t' info h3 h4 h5
          intro i' t'' h7 h8
          have := h6 (i' + 1) t'' (by simpa using h7) h8
          omega

theorem localLabels_spec {f : FactorRec} {t : Term V} (hs : Stores gm p) (hm : FactorMatches gm f t) {labels : List Nat} (hl : p.Labeling labels) : ∀ (k n : Nat), n + k = t.vars.length →
    localLabels gm f labels n k = some (restrict labels (t.vars.drop n))
  | 0, n, h => by
    have : t.vars.drop n = [] := List.drop_eq_nil_of_le (by omega)
    rw [this]; rfl
  | k + 1, n, h => by
    have hn : n < t.vars.length := by omega
    have hv := hm.visAt n (by rw [hm.visSize]; exact hn)
    have hr := hm.range (t.vars[n]) (List.getElem_mem hn)
    rw [hs.labels, ← hl.1] at hr
    unfold localLabels
    rw [hv]
    simp only [List.getElem?_eq_getElem hn]
    rw [List.getElem?_eq_getElem hr, localLabels_spec hs hm hl k (n + 1) (by omega), List.drop_eq_getElem_cons hn]
    simp only [restrict, List.map_cons]
    rw [List.getD_eq_getElem?_getD, List.getElem?_eq_getElem hr]
    rfl

/-- A term is consistent with the labels, seen from a variable. -/
def Consistent (epsilon : V) (labels : List Nat) (t : Term V) (info : FactorInfo V) (var : Nat) : Prop :=
  info.labels[t.vars.idxOf var]? = labels[var]? ∨ |t.value labels - info.value| < t.vars.length * |info.worst| * epsilon

theorem inShape_labeling {f : FactorRec} {t : Term V} (hs : Stores gm p) (hm : FactorMatches gm f t) {x : List Nat} (hx : p.Labeling x) : InShape (restrict p.numLabels t.vars) (restrict x t.vars) := by
  apply InShape_restrict _ _ _ hx.1
  · intro v l n; exact hx.2 v l n
  · intro v hv
    rw [← hs.labels]
    exact hm.range v hv

theorem factorAt (hs : Stores gm p) {j : Nat} {t : Term V} (ht : p.terms[j]? = some t) : ∃ f, gm.factors[j]? = some f ∧ FactorMatches gm f t := by
  obtain ⟨hj, e⟩ := List.getElem?_eq_some_iff.mp ht
  have hl := hs.factors.length_eq
  refine ⟨gm.factors[j], List.getElem?_eq_getElem (by omega), ?_⟩
  have := hs.factors.get (i := j) (by omega) hj
  simp only [List.get_eq_getElem] at this
  rw [← e]; exact this

theorem infoAt {ts : List (Term V)} {infos : List (FactorInfo V)} (h : List.Forall₂ (InfoOk acc p) ts infos) {j : Nat} {t : Term V} (ht : ts[j]? = some t) : ∃ info, infos[j]? = some info ∧ InfoOk acc p t info := by
  obtain ⟨hj, e⟩ := List.getElem?_eq_some_iff.mp ht
  have hl := h.length_eq
  refine ⟨infos[j], List.getElem?_eq_getElem (by omega), ?_⟩
  have := h.get (i := j) hj (by omega)
  simp only [List.get_eq_getElem] at this
  rw [← e]; exact this

theorem checkLoop_spec (hv : Values acc p) (hs : Stores gm p) (epsilon : V) {infos : List (FactorInfo V)} (hi : List.Forall₂ (InfoOk acc p) p.terms infos) {labels : List Nat} (hl : p.Labeling labels) {var : Nat} :
    ∀ ids : List Nat, (∀ j ∈ ids, mentions p.terms var j = true) → ∃ b, checkLoop epsilon gm infos labels var ids = some b ∧
      (b = true ↔ ∀ j ∈ ids, ∀ t info, p.terms[j]? = some t → infos[j]? = some info → t.vars.length ≠ 1 → Consistent epsilon labels t info var)
  | [], _ => ⟨true, rfl, by simp⟩
  | j :: ids, hids => by
    obtain ⟨t, ht, hvt⟩ := Fusion.mentions_iff.mp (hids j (by simp))
    obtain ⟨f, hf, hm⟩ := factorAt hs ht
    obtain ⟨info, hinfo, hok⟩ := infoAt hi ht
    obtain ⟨b, e1, e2⟩ := checkLoop_spec hv hs epsilon hi hl ids (fun j hj => hids j (by simp [hj]))
    have hpos : 0 < t.vars.length := List.length_pos_of_mem hvt
    unfold checkLoop
    rw [hf, hinfo]
    simp only
    rw [hm.visSize]
    have hcons : ∀ P : Prop, (P ↔ (t.vars.length ≠ 1 → Consistent epsilon labels t info var)) → ((P ∧ ∀ j ∈ ids, ∀ t info, p.terms[j]? = some t → infos[j]? = some info → t.vars.length ≠ 1 → Consistent epsilon labels t info var) ↔
        ∀ j' ∈ j :: ids, ∀ t info, p.terms[j']? = some t → infos[j']? = some info → t.vars.length ≠ 1 → Consistent epsilon labels t info var) := by
      intro P hP
      constructor
      · rintro ⟨h1, h2⟩ j' hj' t' info' h3 h4 h5
        rcases List.mem_cons.mp hj' with rfl | hj'
        · rw [ht] at h3; cases h3
          rw [hinfo] at h4; cases h4
          exact hP.mp h1 h5
        · exact h2 j' hj' t' info' h3 h4 h5
      · intro h
        exact ⟨hP.mpr (h j (by simp) t info ht hinfo), fun j' hj' => h j' (by simp [hj'])⟩
    by_cases h1 : t.vars.length ≤ 1
    · rw [if_pos h1, e1]
      refine ⟨b, rfl, ?_⟩
      rw [e2, ← hcons True (by simp; omega)]
      simp
    · rw [if_neg h1, hm.scope]
      have hidx := List.idxOf_lt_length_of_mem hvt
      have hlen := InShape_length _ _ hok.shape
      simp only [restrict, List.length_map] at hlen
      have hvr := hm.range var hvt
      rw [hs.labels, ← hl.1] at hvr
      rw [List.getElem?_eq_getElem (by omega : t.vars.idxOf var < info.labels.length), List.getElem?_eq_getElem hvr]
      simp only
      by_cases h2 : info.labels[t.vars.idxOf var] = labels[var]
      · rw [if_pos h2, e1]
        refine ⟨b, rfl, ?_⟩
        rw [e2, ← hcons True]
        · simp
        · simp only [true_iff]
          intro _
          left
          rw [List.getElem?_eq_getElem (by omega : t.vars.idxOf var < info.labels.length), List.getElem?_eq_getElem hvr, h2]
      · rw [if_neg h2, localLabels_spec hs hm hl t.vars.length 0 (by omega), List.drop_zero]
        simp only
        rw [DP.callFactor_at hs hm (inShape_labeling hs hm hl) (by intro h0; rw [h0] at hpos; simp at hpos)]
        simp only
        have hiff : Consistent epsilon labels t info var ↔ |t.table (restrict labels t.vars) - info.value| < t.vars.length * |info.worst| * epsilon := by
          unfold Consistent
          rw [List.getElem?_eq_getElem (by omega : t.vars.idxOf var < info.labels.length), List.getElem?_eq_getElem hvr]
          simp [h2, Term.value]
        by_cases h3 : |t.table (restrict labels t.vars) - info.value| < t.vars.length * |info.worst| * epsilon
        · rw [if_pos h3, e1]
          refine ⟨b, rfl, ?_⟩
          rw [e2, ← hcons True]
          · simp
          · simp only [true_iff]
            intro _
            exact hiff.mpr h3
        · rw [if_neg h3]
          refine ⟨false, rfl, ?_⟩
          simp only [Bool.false_eq_true, false_iff]
          intro h4
          exact h3 (hiff.mp (h4 j (by simp) t info ht hinfo (by omega)))

theorem secondLoop_spec (hv : Values acc p) (hr : Represents gm p) (epsilon : V) {infos : List (FactorInfo V)} (hi : List.Forall₂ (InfoOk acc p) p.terms infos) {labels : List Nat} (hl : p.Labeling labels) :
    ∀ (us : List Nat) (mask : List Bool), mask.length = p.numLabels.length → (∀ u ∈ us, ∃ t, p.terms[u]? = some t ∧ t.vars.length = 1) →
    ∃ mask', secondLoop epsilon gm infos labels us mask = some mask' ∧ mask'.length = mask.length ∧
      ∀ v : Nat, mask'[v]? = some true ↔ mask[v]? = some true ∧ ∀ u ∈ us, ∀ tu, p.terms[u]? = some tu → tu.vars = [v] →
        ∀ (j : Nat) t info, p.terms[j]? = some t → infos[j]? = some info → v ∈ t.vars → t.vars.length ≠ 1 → Consistent epsilon labels t info v
  | [], mask, _, _ => ⟨mask, rfl, rfl, fun v => ⟨fun h => ⟨h, by simp⟩, fun h => h.1⟩⟩
  | u :: us, mask, hmask, hus => by
    have hs := hr.toStores
    obtain ⟨tu, htu, hone⟩ := hus u (by simp)
    obtain ⟨var, hvar⟩ := List.length_eq_one_iff.mp hone
    obtain ⟨f, hf, hm⟩ := factorAt hs htu
    have hvr := hm.range var (by rw [hvar]; simp)
    obtain ⟨b, e1, e2⟩ := checkLoop_spec hv hs epsilon hi hl (var := var) ((List.range p.terms.length).filter (mentions p.terms var)) (fun j hj => (List.mem_filter.mp hj).2)
    unfold secondLoop
    rw [hf]
    simp only
    rw [hm.visAt 0 (by rw [hm.visSize]; omega), hvar]
    simp only [List.getElem?_cons_zero, GM.factorsOfVariable]
    rw [hr.adj var hvr]
    simp only
    rw [e1]
    simp only
    rw [hs.labels] at hvr
    have hall : b = true → ∀ (j : Nat) t info, p.terms[j]? = some t → infos[j]? = some info → var ∈ t.vars → t.vars.length ≠ 1 → Consistent epsilon labels t info var := by
      intro hb j t info h1 h2 h3 h4
      refine e2.mp hb j ?_ t info h1 h2 h4
      obtain ⟨hj, _⟩ := List.getElem?_eq_some_iff.mp h1
      rw [List.mem_filter, List.mem_range]
      exact ⟨hj, Fusion.mentions_iff.mpr ⟨t, h1, h3⟩⟩
    cases b with
    | true =>
      simp only [if_true]
      obtain ⟨mask', g1, g2, g3⟩ := secondLoop_spec hv hr epsilon hi hl us mask hmask (fun u hu => hus u (by simp [hu]))
      refine ⟨mask', g1, g2, fun v => ⟨fun h => ⟨((g3 v).mp h).1, ?_⟩, fun h => (g3 v).mpr ⟨h.1, fun u' hu' => h.2 u' (by simp [hu'])⟩⟩⟩
      intro u' hu' tu' h1 h2
      rcases List.mem_cons.mp hu' with rfl | hu'
      · rw [htu] at h1; cases h1
        rw [hvar] at h2
        simp only [List.cons.injEq, and_true] at h2
        subst h2
        exact hall rfl
      · exact ((g3 v).mp h).2 u' hu' tu' h1 h2
    | false =>
      simp only [Bool.false_eq_true, if_false]
      rw [if_pos (by omega)]
      obtain ⟨mask', g1, g2, g3⟩ := secondLoop_spec hv hr epsilon hi hl us (mask.set var false) (by simpa using hmask) (fun u hu => hus u (by simp [hu]))
      refine ⟨mask', g1, by rw [g2, List.length_set], fun v => ⟨fun h => ?_, fun h => ?_⟩⟩
      · obtain ⟨h1, h2⟩ := (g3 v).mp h
        have hne : var ≠ v := by
          intro h3
          subst h3
          rw [List.getElem?_set_self (by omega)] at h1
          simp at h1
        rw [List.getElem?_set_ne hne] at h1
        refine ⟨h1, ?_⟩
        intro u' hu' tu' h3 h4
        rcases List.mem_cons.mp hu' with rfl | hu'
        · rw [htu] at h3; cases h3
          rw [hvar] at h4
          simp only [List.cons.injEq, and_true] at h4
          exact absurd h4 hne
        · exact h2 u' hu' tu' h3 h4
      · refine (g3 v).mpr ⟨?_, fun u' hu' => h.2 u' (by simp [hu'])⟩
        have hne : var ≠ v := by
          intro h3
          subst h3
          have : ¬ (false = true) := by simp
          apply this
          refine e2.mpr ?_
          intro j hj t info h4 h5 h6
          obtain ⟨t2, h7, h8⟩ := Fusion.mentions_iff.mp (List.mem_filter.mp hj).2
          rw [h4] at h7; cases h7
          exact h.2 u (by simp) tu htu hvar j t info h4 h5 h8 h6
        rw [List.getElem?_set_ne hne]
        exact h.1

/-- If all variables are consistent, each term is near its optimum. -/
theorem arc_terms (hv : Values acc p) (hr : Represents gm p) (hu : OneUnary p) (epsilon : V) :
    ∃ infos labels unary mask, firstLoop acc gm 0 gm.factors (List.replicate gm.numberOfVariables 0) = some (infos, labels, unary) ∧
      secondLoop epsilon gm infos labels unary (List.replicate p.numLabels.length true) = some mask ∧ mask.length = p.numLabels.length ∧ p.Labeling labels ∧
      List.Forall₂ (InfoOk acc p) p.terms infos ∧ (∀ (j v : Nat) t info, p.terms[j]? = some t → infos[j]? = some info → t.vars = [v] → labels[v]? = info.labels[0]?) ∧
      (∀ v, v < p.numLabels.length → (mask[v]? = some true ↔ ∀ (j : Nat) t info, p.terms[j]? = some t → infos[j]? = some info → v ∈ t.vars → t.vars.length ≠ 1 → Consistent epsilon labels t info v)) ∧
      ((∀ v, v < p.numLabels.length → mask[v]? = some true) → ∀ t ∈ p.terms, ∃ value, (t.value labels = value ∨ t.vars.length ≠ 1 ∧ ∃ c, InShape (restrict p.numLabels t.vars) c ∧ |t.value labels - value| < t.vars.length * |t.table c| * epsilon) ∧
        ∀ c, InShape (restrict p.numLabels t.vars) c → acc.bop (t.table c) value = false) := by
  have hs := hr.toStores
  have hzero : p.Labeling (List.replicate gm.numberOfVariables 0) := by
    refine ⟨by rw [List.length_replicate, GM.numberOfVariables, hs.labels], ?_⟩
    intro v l n h1 h2
    rw [List.getElem?_replicate] at h1
    split at h1
    · cases h1
      exact hv.positive n (List.mem_of_getElem? h2)
    · cases h1
  obtain ⟨infos, labels, unary, e1, e2, e3, e4, _, e6⟩ := firstLoop_spec hv hs gm.factors p.terms 0 (List.replicate gm.numberOfVariables 0) hs.factors (fun t h => h) hzero
  obtain ⟨mask, g1, g2, g3⟩ := secondLoop_spec hv hr epsilon e2 e3 unary (List.replicate p.numLabels.length true) (by simp) (by
    intro u hu
    obtain ⟨i, t, rfl, h1, h2⟩ := (e4 u).mp hu
    exact ⟨t, by simpa using h1, h2⟩)
  have hun : ∀ (j v : Nat) t info, p.terms[j]? = some t → infos[j]? = some info → t.vars = [v] → labels[v]? = info.labels[0]? := by
    intro j v t info h1 h2 h3
    obtain ⟨hj, h1'⟩ := List.getElem?_eq_some_iff.mp h1
    have hdef : termAt p j = t := by
      have := termAt_get hj
      rw [h1] at this
      exact (Option.some.inj this).symm
    obtain ⟨j0, _, _, h4⟩ := oneUnary_iff hu (i := j) (v := v) hj (by rw [hdef, h3]; simp)
    exact e6 v j t info h1 h2 h3 (fun i' t' h5 h6 => by
      obtain ⟨h7, h8⟩ := List.getElem?_eq_some_iff.mp h5
      have h9 : termAt p i' = t' := by
        have := termAt_get h7
        rw [h5] at this
        exact (Option.some.inj this).symm
      rw [h4 i' h7 (by rw [h9]; exact h6), h4 j hj (by rw [hdef]; exact h3)])
  refine ⟨infos, labels, unary, mask, e1, g1, by simpa using g2, e3, e2, hun, ?_, ?_⟩
  · intro v hv'
    rw [g3 v]
    constructor
    · rintro ⟨_, h2⟩ j t info h3 h4 h5 h6
      obtain ⟨hj, h3'⟩ := List.getElem?_eq_some_iff.mp h3
      have hdef : termAt p j = t := by
        have := termAt_get hj
        rw [h3] at this
        exact (Option.some.inj this).symm
      obtain ⟨u, h7, h8, _⟩ := oneUnary_iff hu (i := j) (v := v) hj (by rw [hdef]; exact h5)
      exact h2 u ((e4 u).mpr ⟨u, termAt p u, by simp, termAt_get h7, by rw [h8]; rfl⟩) (termAt p u) (termAt_get h7) h8 j t info h3 h4 h5 h6
    · intro h2
      refine ⟨by rw [List.getElem?_replicate, if_pos hv'], ?_⟩
      intro u _ tu _ _ j t info h3 h4 h5 h6
      exact h2 j t info h3 h4 h5 h6
  intro hmask t ht
  obtain ⟨j, hj, rfl⟩ := List.getElem_of_mem ht
  have hget : p.terms[j]? = some p.terms[j] := List.getElem?_eq_getElem hj
  obtain ⟨info, hinfo, hok⟩ := infoAt e2 hget
  obtain ⟨f, hf, hm⟩ := factorAt hs hget
  have hnd : p.terms[j].vars.Nodup := hm.sorted.imp (fun h => Nat.ne_of_lt h)
  refine ⟨info.value, ?_, hok.best⟩
  have hlen := InShape_length _ _ hok.shape
  simp only [restrict, List.length_map] at hlen
  have hexact : (∀ v ∈ p.terms[j].vars, info.labels[p.terms[j].vars.idxOf v]? = labels[v]?) → p.terms[j].value labels = info.value := by
    intro h
    have : restrict labels p.terms[j].vars = info.labels := by
      rw [← tuple_map hnd hlen]
      apply List.map_congr_left
      intro v hv'
      rw [List.getD_eq_getElem?_getD, List.getD_eq_getElem?_getD, h v hv']
    rw [Term.value, this, hok.value]
  by_cases h1 : p.terms[j].vars.length = 1
  · obtain ⟨v, hvv⟩ := List.length_eq_one_iff.mp h1
    left
    apply hexact
    intro w hw
    rw [hvv] at hw ⊢
    simp only [List.mem_singleton] at hw
    subst hw
    rw [hun j w p.terms[j] info hget hinfo hvv]
    simp
  · by_cases hall : ∀ v ∈ p.terms[j].vars, info.labels[p.terms[j].vars.idxOf v]? = labels[v]?
    · exact Or.inl (hexact hall)
    · push Not at hall
      obtain ⟨v, hv1, hv2⟩ := hall
      have hdef : termAt p j = p.terms[j] := by
        have := termAt_get hj
        rw [hget] at this
        exact (Option.some.inj this).symm
      obtain ⟨u, h2, h3, _⟩ := oneUnary_iff hu (i := j) (v := v) hj (by rw [hdef]; exact hv1)
      have hvr := hm.range v hv1
      rw [hs.labels] at hvr
      have hc := ((g3 v).mp (hmask v hvr)).2 u ((e4 u).mpr ⟨u, termAt p u, by simp, termAt_get h2, by rw [h3]; rfl⟩) (termAt p u) (termAt_get h2) h3 j p.terms[j] info hget hinfo hv1 h1
      rcases hc with hc | hc
      · exact absurd hc hv2
      · obtain ⟨c, hc1, hc2⟩ := hok.worst h1
        rw [hc2] at hc
        exact Or.inr ⟨h1, c, hc1, hc⟩

end
end OpenGM.Repa
