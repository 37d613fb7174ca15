import Verif.Lemmas.DecompositionComplete
/-
C50. Decompositions of a model into submodels.

For the decomposition objects reachable through the public interface (any constructor, then any sequence of addSubModel, addSubVariable, both addSubFactor,
complete and reorder, where sub-factors are added with copies of the variables of the factor): submodels, variables and factors of submodels are numbered
consecutively, `complete` gives every copy of a variable with several copies a unary sub-factor and adds nothing else, `reorder` renumbers the copies
bijectively in the order of the variables and consistently in the sub-factors, and `isValid` decides whether every variable and every factor has a copy.
-/
namespace OpenGM
namespace Decomposition
open Spec

/-- The decompositions of a model with `n` variables and factors with the variables `scopes` that the public interface can produce. -/
inductive Reachable (n : Nat) (scopes : List (List Nat)) : Decomposition → Prop
  | make (M : Nat) : Reachable n scopes (make n scopes.length M)
  | addSubModel {d : Decomposition} : Reachable n scopes d → Reachable n scopes d.addSubModel.2
  | addSubVariable {d d' : Decomposition} {m v k : Nat} : Reachable n scopes d → m < d.numModels → v < n → d.addSubVariable m v = some (k, d') → Reachable n scopes d'
  | addSubFactor {d d' : Decomposition} {m f k : Nat} {ids vars : List Nat} : Reachable n scopes d → m < d.numModels → scopes[f]? = some vars →
      CopiesOf d.varLists m ids vars → d.addSubFactor m f ids = some (k, d') → Reachable n scopes d'
  | addEmptySubFactor {d d' : Decomposition} {m k : Nat} {ids vars : List Nat} : Reachable n scopes d → m < d.numModels →
      CopiesOf d.varLists m ids vars → d.addEmptySubFactor m vars ids = some (k, d') → Reachable n scopes d'
  | complete {d d' : Decomposition} : Reachable n scopes d → d.complete = some d' → Reachable n scopes d'
  | reorder {d d' : Decomposition} : Reachable n scopes d → d.reorder = some d' → Reachable n scopes d'

theorem Reachable.inv {n : Nat} {scopes : List (List Nat)} {d : Decomposition} (h : Reachable n scopes d) : d.numVars = n ∧ WF scopes d := by
  induction h with
  | make M => exact ⟨rfl, make_wf n M scopes⟩
  | addSubModel _ ih => exact ⟨ih.1, (addSubModel_spec ih.2).2⟩
  | addSubVariable _ hm hv he ih =>
    obtain ⟨k, l, _, _, e, w⟩ := addSubVariable_spec ih.2 hm (by rw [ih.1]; exact hv)
    rw [e] at he
    simp only [Option.some.injEq, Prod.mk.injEq] at he
    obtain ⟨_, rfl⟩ := he
    exact ⟨ih.1, w⟩
  | addSubFactor _ hm hs hc he ih =>
    obtain ⟨k, l, _, _, e, w⟩ := addSubFactor_spec ih.2 hm hs hc
    rw [e] at he
    simp only [Option.some.injEq, Prod.mk.injEq] at he
    obtain ⟨_, rfl⟩ := he
    exact ⟨ih.1, w⟩
  | addEmptySubFactor _ hm hc he ih =>
    obtain ⟨k, _, e, w⟩ := addEmptySubFactor_spec ih.2 hm hc
    rw [e] at he
    simp only [Option.some.injEq, Prod.mk.injEq] at he
    obtain ⟨_, rfl⟩ := he
    exact ⟨ih.1, w⟩
  | complete _ he ih =>
    obtain ⟨d', e, w, s, _⟩ := complete_spec ih.2
    rw [e] at he
    injection he with he
    subst he
    exact ⟨by rw [s.numVars]; exact ih.1, w⟩
  | reorder _ he ih =>
    rw [reorder_eq ih.2] at he
    injection he with he
    subst he
    exact ⟨ih.1, reorder_wf ih.2⟩

/-- No operation has undefined behaviour, and the operations that add something return the number of submodels, of variables of the submodel or of
factors of the submodel before the addition, which the addition increments. -/
theorem C50_operations {n : Nat} {scopes : List (List Nat)} {d : Decomposition} (h : Reachable n scopes d) :
    (d.addSubModel.1 = d.numModels ∧ d.addSubModel.2.numModels = d.numModels + 1) ∧
    (∀ m v, m < d.numModels → v < n → ∃ k d', d.addSubVariable m v = some (k, d') ∧ d.numSubVars[m]? = some k ∧ d'.numSubVars[m]? = some (k + 1) ∧
      ∃ l, d.varLists[v]? = some l ∧ d'.varLists = d.varLists.set v (l ++ [⟨m, k⟩])) ∧
    (∀ m f ids vars, m < d.numModels → scopes[f]? = some vars → CopiesOf d.varLists m ids vars → ∃ k d', d.addSubFactor m f ids = some (k, d') ∧
      d.numSubFactors[m]? = some k ∧ d'.numSubFactors[m]? = some (k + 1) ∧
      ∃ l, d.facLists[f]? = some l ∧ d'.facLists = d.facLists.set f (l ++ [⟨m, some k, ids⟩])) ∧
    (∀ m ids vars, m < d.numModels → CopiesOf d.varLists m ids vars → ∃ k d', d.addEmptySubFactor m vars ids = some (k, d') ∧
      d.numSubFactors[m]? = some k ∧ d'.numSubFactors[m]? = some (k + 1) ∧
      ∀ key, emptyAt key d'.empty = if key = vars then emptyAt vars d.empty ++ [⟨m, none, ids⟩] else emptyAt key d.empty) ∧
    (∃ d', d.complete = some d') ∧ (∃ d', d.reorder = some d') := by
  obtain ⟨hn, w⟩ := h.inv
  refine ⟨⟨rfl, rfl⟩, ?_, ?_, ?_, ?_, ?_⟩
  · intro m v hm hv
    obtain ⟨k, l, h1, h2, e, _⟩ := addSubVariable_spec w hm (by rw [hn]; exact hv)
    exact ⟨k, _, e, h1, List.getElem?_set_self (by rw [w.subVarsLen]; exact hm), l, h2, rfl⟩
  · intro m f ids vars hm hs hc
    obtain ⟨k, l, h1, h2, e, _⟩ := addSubFactor_spec w hm hs hc
    exact ⟨k, _, e, h1, List.getElem?_set_self (by rw [w.subFacsLen]; exact hm), l, h2, rfl⟩
  · intro m ids vars hm hc
    obtain ⟨k, h1, e, _⟩ := addEmptySubFactor_spec w hm hc
    exact ⟨k, _, e, h1, List.getElem?_set_self (by rw [w.subFacsLen]; exact hm), fun key => emptyAt_pushEmpty ..⟩
  · obtain ⟨d', e, _⟩ := complete_spec w
    exact ⟨d', e⟩
  · exact ⟨_, reorder_eq w⟩

/-- In every reachable decomposition the variables of the submodels are numbered consecutively; every sub-factor depends on copies, in its own submodel,
of the variables of its factor (or of the variables it was added for), in their order; the sub-factors of factors have different numbers, below the
number of factors of the submodel, which is the number of its sub-factors. -/
theorem C50_numbered {n : Nat} {scopes : List (List Nat)} {d : Decomposition} (h : Reachable n scopes d) :
    d.varLists.length = n ∧ d.facLists.length = scopes.length ∧ d.numSubVars.length = d.numModels ∧ d.numSubFactors.length = d.numModels ∧
    Numbered d.varLists d.numSubVars ∧
    (∀ (f : Nat) (l : List SubFactor) (s : SubFactor), d.facLists[f]? = some l → s ∈ l →
      s.model < d.numModels ∧ (∃ vars, scopes[f]? = some vars ∧ CopiesOf d.varLists s.model s.indices vars) ∧
      ∃ k c, s.id = some k ∧ d.numSubFactors[s.model]? = some c ∧ k < c) ∧
    (∀ key, ∀ s ∈ emptyAt key d.empty, s.model < d.numModels ∧ CopiesOf d.varLists s.model s.indices key) ∧
    (d.facLists.flatten.map (fun s => (s.model, s.id))).Nodup ∧
    (∀ m c : Nat, d.numSubFactors[m]? = some c →
      c = d.facLists.flatten.countP (fun s => s.model = m) + (d.empty.flatMap Prod.snd).countP (fun s => s.model = m)) := by
  obtain ⟨hn, w⟩ := h.inv
  refine ⟨by rw [w.varsLen, hn], by rw [w.facsLen, w.scopesLen], w.subVarsLen, w.subFacsLen, w.numbered, ?_, ?_, w.idOnce, w.count⟩
  · intro f l s hl hs
    obtain ⟨h1, h2⟩ := w.copies f l s hl hs
    exact ⟨h1, h2, w.idLt s (List.mem_flatten.mpr ⟨l, List.mem_of_getElem? hl, hs⟩)⟩
  · intro key s hs
    obtain ⟨l, hl, hs⟩ := mem_emptyAt hs
    exact w.emptyCopies key l s hl hs

/-- `reorder` renumbers the variables of every submodel bijectively, in the lists of copies and in all sub-factors; afterwards the variables of every
submodel are numbered in the order in which they appear in the lists of copies, so copies of larger variables have larger numbers. Nothing else changes. -/
theorem C50_reorder {n : Nat} {scopes : List (List Nat)} {d d' : Decomposition} (h : Reachable n scopes d) (he : d.reorder = some d') :
    (∃ π : Nat → Nat → Nat, (∀ m c : Nat, d.numSubVars[m]? = some c → Renumbers c (π m)) ∧
      d'.varLists = d.varLists.map (List.map (fun s => ⟨s.model, π s.model s.id⟩)) ∧
      d'.facLists = d.facLists.map (List.map (fun s => ⟨s.model, s.id, s.indices.map (π s.model)⟩)) ∧
      d'.empty = d.empty.map (fun p => (p.1, p.2.map (fun s => ⟨s.model, s.id, s.indices.map (π s.model)⟩)))) ∧
    (∀ m c : Nat, d.numSubVars[m]? = some c → (d'.varLists.flatten.filter (fun s => s.model = m)).map (·.id) = List.range c) ∧
    (∀ m k k' v v', CopyOf d'.varLists m k v → CopyOf d'.varLists m k' v' → v < v' → k < k') ∧
    d'.numVars = d.numVars ∧ d'.numFactors = d.numFactors ∧ d'.numModels = d.numModels ∧ d'.numSubVars = d.numSubVars ∧ d'.numSubFactors = d.numSubFactors := by
  obtain ⟨hn, w⟩ := h.inv
  rw [reorder_eq w] at he
  injection he with he
  subst he
  exact ⟨⟨d.newId, fun m c hc => newId_renumbers w.numbered hc, rfl, rfl, rfl⟩, fun m c hc => reorder_consecutive w hc,
    fun m k k' v v' h1 h2 hv => reorder_order w h1 h2 hv, rfl, rfl, rfl, rfl, rfl⟩

/-- After `reorder` the variables of a sub-factor of a factor with increasing variables are increasing. -/
theorem C50_reorder_sorted {n : Nat} {scopes : List (List Nat)} {d d' : Decomposition} (h : Reachable n scopes d) (he : d.reorder = some d')
    {f : Nat} {vars : List Nat} {l : List SubFactor} {s : SubFactor} (hs : scopes[f]? = some vars) (hv : vars.Pairwise (· < ·))
    (hl : d'.facLists[f]? = some l) (hm : s ∈ l) : s.indices.Pairwise (· < ·) := by
  obtain ⟨_, _, _, _, _, hc, _⟩ := C50_numbered (h.reorder he)
  obtain ⟨_, ⟨vars', hs', hc⟩, _⟩ := hc f l s hl hm
  rw [hs] at hs'
  injection hs' with hs'
  subst hs'
  have hlt := (C50_reorder h he).2.2.1
  clear hl hm hs he h
  generalize s.indices = ids at hc
  generalize s.model = m at hc
  unfold CopiesOf at hc
  induction hc with
  | nil => exact .nil
  | @cons k v ids vars h1 h2 ih =>
    rw [List.pairwise_cons] at hv ⊢
    refine ⟨?_, ih hv.2⟩
    intro k' hk'
    have key : ∀ {ids vars : List Nat}, List.Forall₂ (fun k v => CopyOf d'.varLists m k v) ids vars → k' ∈ ids → ∃ v' ∈ vars, CopyOf d'.varLists m k' v' := by
      intro ids vars hF
      induction hF with
      | nil => simp
      | cons a1 a2 ih =>
        intro hk
        rcases List.mem_cons.mp hk with hk | hk
        · subst hk
          exact ⟨_, by simp, a1⟩
        · obtain ⟨v', b1, b2⟩ := ih hk
          exact ⟨v', by simp [b1], b2⟩
    obtain ⟨v', h3, h4⟩ := key h2 hk'
    exact hlt m k k' v v' h1 h4 (hv.1 v' h3)

/-- `complete` keeps all copies of variables and all sub-factors. For every variable with several copies: if some factor of this variable alone has a
copy, one such factor gets a sub-factor at every copy of the variable where it had none, and otherwise the list of sub-factors without a factor of this
variable does. Nothing else is added. -/
theorem C50_complete {n : Nat} {scopes : List (List Nat)} {d d' : Decomposition} (h : Reachable n scopes d) (he : d.complete = some d') :
    d'.numVars = d.numVars ∧ d'.numFactors = d.numFactors ∧ d'.numModels = d.numModels ∧ d'.numSubVars = d.numSubVars ∧ d'.varLists = d.varLists ∧
    (∀ (v : Nat) (copies : List SubVariable), d.varLists[v]? = some copies → 1 < copies.length →
      (∃ (f : Nat) (fl fl' : List SubFactor), scopes[f]? = some [v] ∧ fl ≠ [] ∧ d.facLists[f]? = some fl ∧ d'.facLists[f]? = some fl' ∧
        Extends d.varLists v fl fl' ∧ Covered d.varLists fl' v ∧ emptyAt [v] d'.empty = emptyAt [v] d.empty ∧
        ∀ f', f' ≠ f → scopes[f']? = some [v] → d'.facLists[f']? = d.facLists[f']?) ∨
      ((∀ (f : Nat) (fl : List SubFactor), scopes[f]? = some [v] → d.facLists[f]? = some fl → fl = [] ∧ d'.facLists[f]? = some []) ∧
        Extends d.varLists v (emptyAt [v] d.empty) (emptyAt [v] d'.empty) ∧ Covered d.varLists (emptyAt [v] d'.empty) v)) ∧
    (∀ f : Nat, (∀ (v : Nat) (copies : List SubVariable), d.varLists[v]? = some copies → 1 < copies.length → scopes[f]? ≠ some [v]) →
      d'.facLists[f]? = d.facLists[f]?) ∧
    (∀ key, (∀ (v : Nat) (copies : List SubVariable), d.varLists[v]? = some copies → 1 < copies.length → key ≠ [v]) →
      emptyAt key d'.empty = emptyAt key d.empty) := by
  obtain ⟨hn, w⟩ := h.inv
  obtain ⟨d1, e, w', s, a1, a2, a3, a4⟩ := complete_spec w
  rw [e] at he
  injection he with he
  subst he
  refine ⟨s.numVars, s.numFactors, s.numModels, s.numSubVars, s.varLists, ?_, ?_, ?_⟩
  · intro v copies hv hlen
    have hM : Multi d v := ⟨copies, hv, hlen⟩
    by_cases hex : ∃ f, UnaryAt scopes d f v
    · left
      obtain ⟨f, fl, fl', b1, b2, b3, b4, b5, b6⟩ := a1 v hM hex
      refine ⟨f, fl, fl', b1.1, ?_, b2, b3, b4, b5, ?_, b6⟩
      · obtain ⟨_, t, l, hl⟩ := b1
        rw [b2] at hl
        injection hl with hl
        rw [hl]
        simp
      · apply a4
        intro v' _ hno e
        simp only [List.cons.injEq, and_true] at e
        subst e
        obtain ⟨f, hf⟩ := hex
        exact hno f hf
    · right
      have hno : ∀ f, ¬ UnaryAt scopes d f v := fun f hf => hex ⟨f, hf⟩
      refine ⟨?_, a2 v hM hno⟩
      intro f fl hs hl
      have : fl = [] := by
        cases fl with
        | nil => rfl
        | cons t l => exact absurd ⟨hs, t, l, hl⟩ (hno f)
      subst this
      refine ⟨rfl, ?_⟩
      rw [a3 f, hl]
      rintro v' _ ⟨_, t, l, hl'⟩
      rw [hl] at hl'
      simp at hl'
  · intro f hno
    apply a3
    rintro v ⟨copies, hv, hlen⟩ hu
    exact hno v copies hv hlen hu.1
  · intro key hno
    apply a4
    rintro v ⟨copies, hv, hlen⟩ _
    exact hno v copies hv hlen

theorem checkVars_eq (lists : List (List SubVariable)) : ∀ (is : List Nat) (ret : Bool), (∀ i ∈ is, i < lists.length) →
    ∃ b, checkVars lists is ret = some b ∧ (b = true ↔ ret = true ∧ ∀ i ∈ is, lists[i]? ≠ some []) := by
  intro is
  induction is with
  | nil => intro ret _; exact ⟨ret, rfl, by simp⟩
  | cons i is ih =>
    intro ret hlt
    obtain ⟨l, hl⟩ : ∃ l, lists[i]? = some l := ⟨_, List.getElem?_eq_getElem (hlt i (by simp))⟩
    obtain ⟨b, e, hb⟩ := ih (if l.length = 0 then false else ret) (fun j hj => hlt j (by simp [hj]))
    refine ⟨b, by simp only [checkVars, hl, e], ?_⟩
    rw [hb]
    cases l with
    | nil => simp [hl]
    | cons x l => simp [hl]

theorem checkCopies_eq (order : Nat) : ∀ (l : List SubFactor) (ret : Bool), checkCopies order l ret = true ↔ ret = true ∧ ∀ s ∈ l, s.indices.length = order := by
  intro l
  induction l with
  | nil => simp [checkCopies]
  | cons s l ih =>
    intro ret
    simp only [checkCopies, ih, List.mem_cons, forall_eq_or_imp]
    by_cases h : s.indices.length = order <;> simp [h]

theorem checkFactors_eq (lists : List (List SubFactor)) : ∀ (is : List (Nat × Nat)) (ret : Bool), (∀ p ∈ is, p.2 < lists.length) →
    ∃ b, checkFactors lists is ret = some b ∧
      (b = true ↔ ret = true ∧ ∀ p ∈ is, ∀ l, lists[p.2]? = some l → l ≠ [] ∧ ∀ s ∈ l, s.indices.length = p.1) := by
  intro is
  induction is with
  | nil => intro ret _; exact ⟨ret, rfl, by simp⟩
  | cons p is ih =>
    intro ret hlt
    obtain ⟨order, i⟩ := p
    obtain ⟨l, hl⟩ : ∃ l, lists[i]? = some l := ⟨_, List.getElem?_eq_getElem (hlt (order, i) (by simp))⟩
    obtain ⟨b, e, hb⟩ := ih (checkCopies order l (if l.length = 0 then false else ret)) (fun j hj => hlt j (by simp [hj]))
    refine ⟨b, by simp only [checkFactors, hl, e], ?_⟩
    rw [hb, checkCopies_eq]
    simp only [List.mem_cons, forall_eq_or_imp, hl, Option.some.injEq, forall_eq']
    by_cases h : l = []
    · simp [h]
    · have : l.length ≠ 0 := by simpa using h
      simp only [if_neg this, ne_eq, h, not_false_eq_true, true_and]
      tauto

/-- `isValid` applied to the decomposed model answers whether every variable and every factor has a copy. -/
theorem C50_isValid {n : Nat} {scopes : List (List Nat)} (hsc : ∀ vars ∈ scopes, ∀ v ∈ vars, v < n) {d : Decomposition} (h : Reachable n scopes d) :
    ∃ b, d.isValid n scopes = some b ∧ (b = true ↔ (∀ v, v < n → d.varLists[v]? ≠ some []) ∧ ∀ f, f < scopes.length → d.facLists[f]? ≠ some []) := by
  obtain ⟨hn, w⟩ := h.inv
  have hvl : d.varLists.length = n := by rw [w.varsLen, hn]
  have hfl : d.facLists.length = scopes.length := by rw [w.facsLen, w.scopesLen]
  have hlen : ∀ (f : Nat) (l : List SubFactor) (vars : List Nat), d.facLists[f]? = some l → scopes[f]? = some vars → ∀ s ∈ l, s.indices.length = vars.length := by
    intro f l vars hl hs s hm
    obtain ⟨_, vars', hs', hc⟩ := w.copies f l s hl hm
    rw [hs] at hs'
    injection hs' with hs'
    subst hs'
    exact hc.length_eq
  have hr : d.readsOk scopes = true := by
    unfold readsOk
    rw [List.all_eq_true]
    rintro ⟨vars, i⟩ hp
    rw [List.mem_zipIdx_iff_getElem?] at hp
    simp only at hp ⊢
    have hi : i < d.facLists.length := by
      rw [hfl]
      exact (List.getElem?_eq_some_iff.mp hp).1
    obtain ⟨l, hl⟩ : ∃ l, d.facLists[i]? = some l := ⟨_, List.getElem?_eq_getElem hi⟩
    simp only [hl]
    rw [List.all_eq_true]
    intro s hs
    rw [List.all_eq_true]
    rintro ⟨v, j⟩ hq
    rw [List.mem_zipIdx_iff_getElem?] at hq
    simp only at hq ⊢
    have hv : v < d.varLists.length := by
      rw [hvl]
      exact hsc vars (List.mem_of_getElem? hp) v (List.mem_of_getElem? hq)
    obtain ⟨vl, hvl'⟩ : ∃ vl, d.varLists[v]? = some vl := ⟨_, List.getElem?_eq_getElem hv⟩
    simp only [hvl']
    rw [List.all_eq_true]
    intro t _
    have hj : j < s.indices.length := by
      rw [hlen i l vars hl hp s hs]
      exact (List.getElem?_eq_some_iff.mp hq).1
    simp [hj]
  obtain ⟨b1, e1, h1⟩ := checkVars_eq d.varLists (List.range n) true (by intro i hi; rw [hvl]; exact List.mem_range.mp hi)
  obtain ⟨b2, e2, h2⟩ := checkFactors_eq d.facLists ((scopes.map List.length).zipIdx) b1 (by
    rintro ⟨o, i⟩ hp
    rw [List.mem_zipIdx_iff_getElem?] at hp
    have := (List.getElem?_eq_some_iff.mp hp).1
    rw [List.length_map] at this
    rw [hfl]
    exact this)
  refine ⟨b2, ?_, ?_⟩
  · simp only [isValid, hr, if_true, hvl, hfl, ne_eq, not_true_eq_false, if_false, e1, e2]
  · rw [h2, h1]
    simp only [true_and, List.mem_range]
    apply and_congr_right
    intro _
    constructor
    · intro H f hf hnil
      refine (H ((scopes[f]).length, f) ?_ [] hnil).1 rfl
      rw [List.mem_zipIdx_iff_getElem?]
      simp only [List.getElem?_map, List.getElem?_eq_getElem hf]
      rfl
    · rintro H ⟨o, f⟩ hp l hl
      rw [List.mem_zipIdx_iff_getElem?] at hp
      simp only [List.getElem?_map, Option.map_eq_some_iff] at hp hl
      obtain ⟨vars, hs, rfl⟩ := hp
      refine ⟨?_, hlen f l vars hl hs⟩
      rintro rfl
      exact H f (List.getElem?_eq_some_iff.mp hs).1 hl

theorem checkVars_true (lists : List (List SubVariable)) : ∀ (is : List Nat) (ret : Bool), checkVars lists is ret = some true →
    ret = true ∧ ∀ i ∈ is, ∃ l, lists[i]? = some l ∧ l ≠ [] := by
  intro is
  induction is with
  | nil => intro ret h; simp [checkVars] at h; simp [h]
  | cons i is ih =>
    intro ret h
    rw [checkVars] at h
    cases hl : lists[i]? with
    | none => rw [hl] at h; simp at h
    | some l =>
      rw [hl] at h
      obtain ⟨h1, h2⟩ := ih _ h
      cases l with
      | nil => simp at h1
      | cons x l =>
        refine ⟨by simpa using h1, ?_⟩
        intro j hj
        rcases List.mem_cons.mp hj with rfl | hj
        · exact ⟨_, hl, by simp⟩
        · exact h2 j hj

theorem checkFactors_true (lists : List (List SubFactor)) : ∀ (is : List (Nat × Nat)) (ret : Bool), checkFactors lists is ret = some true →
    ret = true ∧ ∀ p ∈ is, ∃ l, lists[p.2]? = some l ∧ l ≠ [] ∧ ∀ s ∈ l, s.indices.length = p.1 := by
  intro is
  induction is with
  | nil => intro ret h; simp [checkFactors] at h; simp [h]
  | cons p is ih =>
    intro ret h
    obtain ⟨order, i⟩ := p
    rw [checkFactors] at h
    cases hl : lists[i]? with
    | none => rw [hl] at h; simp at h
    | some l =>
      rw [hl] at h
      obtain ⟨h1, h2⟩ := ih _ h
      rw [checkCopies_eq] at h1
      cases l with
      | nil => simp at h1
      | cons x l =>
        refine ⟨by simpa using h1.1, ?_⟩
        intro q hq
        rcases List.mem_cons.mp hq with rfl | hq
        · exact ⟨_, hl, by simp, h1.2⟩
        · exact h2 q hq

/-- Whatever object and model `isValid` is applied to: if it answers true, the object has been made for as many variables and factors as the model has,
every variable and every factor has a copy, and the copies of a factor depend on as many variables as the factor. -/
theorem C50_isValid_sound {n : Nat} {scopes : List (List Nat)} {d : Decomposition} (h : d.isValid n scopes = some true) :
    d.varLists.length = n ∧ d.facLists.length = scopes.length ∧ (∀ l ∈ d.varLists, l ≠ []) ∧
    ∀ (f : Nat) (vars : List Nat), scopes[f]? = some vars → ∃ l, d.facLists[f]? = some l ∧ l ≠ [] ∧ ∀ s ∈ l, s.indices.length = vars.length := by
  unfold isValid at h
  split at h
  · simp only at h
    split at h
    · simp at h
    · rename_i ret hv
      obtain ⟨h1, h2⟩ := checkFactors_true _ _ _ h
      subst h1
      obtain ⟨h3, h4⟩ := checkVars_true _ _ _ hv
      have hf : d.facLists.length = scopes.length := by
        by_contra hne
        simp [hne] at h3
      have hn : d.varLists.length = n := by
        by_contra hne
        simp [hne] at h3
      refine ⟨hn, hf, ?_, ?_⟩
      · intro l hl
        obtain ⟨i, hi⟩ := List.mem_iff_getElem?.mp hl
        obtain ⟨l', e, hne⟩ := h4 i (by rw [List.mem_range, ← hn]; exact (List.getElem?_eq_some_iff.mp hi).1)
        rw [hi] at e
        cases e
        exact hne
      · intro f vars hs
        apply h2 (vars.length, f)
        rw [List.mem_zipIdx_iff_getElem?]
        simp only [List.getElem?_map, hs, Option.map_some]
  · simp at h

/-- A model with two variables, a pairwise and a unary factor. -/
def demoScopes : List (List Nat) := [[0, 1], [0]]

/-- Two submodels: the first has the variables 1, 0 (in this order) and the pairwise factor, the second the variable 0 and the unary factor. -/
def demo : Option Decomposition := do
  let d := make 2 2 0
  let d := d.addSubModel.2
  let d := d.addSubModel.2
  let (_, d) ← d.addSubVariable 0 1
  let (_, d) ← d.addSubVariable 0 0
  let (_, d) ← d.addSubVariable 1 0
  let (_, d) ← d.addSubFactor 0 0 [1, 0]
  let (_, d) ← d.addSubFactor 1 1 [0]
  return d

theorem demo_reachable : ∃ d, demo = some d ∧ Reachable 2 demoScopes d := by
  have h0 : Reachable 2 demoScopes (make 2 2 0) := Reachable.make 0
  have h1 := h0.addSubModel.addSubModel
  obtain ⟨k2, d2, e2⟩ : ∃ k d, (make 2 2 0).addSubModel.2.addSubModel.2.addSubVariable 0 1 = some (k, d) := ⟨_, _, rfl⟩
  have h2 := h1.addSubVariable (by decide) (by decide) e2
  cases e2
  have h3 := h2.addSubVariable (m := 0) (v := 0) (by decide) (by decide) rfl
  have h4 := h3.addSubVariable (m := 1) (v := 0) (by decide) (by decide) rfl
  have h5 := h4.addSubFactor (m := 0) (f := 0) (ids := [1, 0]) (by decide) rfl (.cons ⟨_, rfl, by decide⟩ (.cons ⟨_, rfl, by decide⟩ .nil)) rfl
  have h6 := h5.addSubFactor (m := 1) (f := 1) (ids := [0]) (by decide) rfl (.cons ⟨_, rfl, by decide⟩ .nil) rfl
  exact ⟨_, rfl, h6⟩

/-- The hypotheses of the theorems of this file are satisfiable: the decomposition is valid; `reorder` exchanges the variables of the first submodel, and
`complete` adds a copy of the unary factor to the first submodel. -/
example : ∃ d d' d'', Reachable 2 demoScopes d ∧ d.isValid 2 demoScopes = some true ∧ d.reorder = some d' ∧ d'.facLists = [[⟨0, some 0, [0, 1]⟩], [⟨1, some 0, [0]⟩]] ∧
    d.complete = some d'' ∧ d''.facLists = [[⟨0, some 0, [1, 0]⟩], [⟨1, some 0, [0]⟩, ⟨0, some 1, [1]⟩]] := by
  obtain ⟨d, h1, h2⟩ := demo_reachable
  cases h1
  exact ⟨_, _, _, h2, by decide, rfl, rfl, rfl, rfl⟩

/-- The same object is not valid for a model with fewer variables or fewer factors. -/
example : ∃ d, Reachable 2 demoScopes d ∧ d.isValid 1 [] = some false ∧ d.isValid 2 [[0, 1]] = some false := by
  obtain ⟨d, h1, h2⟩ := demo_reachable
  cases h1
  exact ⟨_, h2, by decide, by decide⟩

/-- The number of a sub-factor without a factor is not stored, although it is counted. -/
theorem C50_violated_emptyId (d d' : Decomposition) (m k : Nat) (vars ids : List Nat) (h : d.addEmptySubFactor m vars ids = some (k, d')) :
    ∃ s ∈ emptyAt vars d'.empty, s.model = m ∧ s.indices = ids ∧ s.id = none := by
  unfold addEmptySubFactor at h
  cases hk : d.numSubFactors[m]? with
  | none => rw [hk] at h; exact absurd h (by simp)
  | some k' =>
    rw [hk] at h
    simp only [Option.some.injEq, Prod.mk.injEq] at h
    obtain ⟨_, rfl⟩ := h
    simp only [emptyAt_pushEmpty, if_true]
    exact ⟨⟨m, none, ids⟩, List.mem_append_right _ (by simp), rfl, rfl, rfl⟩

/-- A decomposition in which the copy of a factor depends on copies of the wrong variables is reported as valid. -/
theorem C50_violated_isValid : ∃ d : Decomposition,
    (do let d := (make 2 1 1)
        let (_, d) ← d.addSubVariable 0 0
        let (_, d) ← d.addSubVariable 0 1
        let (_, d) ← d.addSubFactor 0 0 [1]
        pure d) = some d ∧
    d.isValid 2 [[0]] = some true ∧ ∃ s ∈ d.facLists.flatten, ¬ CopiesOf d.varLists s.model s.indices [0] := by
  refine ⟨_, rfl, by decide, ⟨0, some 0, [1]⟩, by decide, ?_⟩
  intro h
  unfold CopiesOf at h
  cases h with
  | cons h1 _ =>
    obtain ⟨l, h1, h2⟩ := h1
    simp only [make, List.replicate, List.set, List.getElem?_cons_zero, Option.some.injEq] at h1
    subst h1
    simp at h2

/-- A sub-factor with too few variables is not reported: `isValid` reads behind the end of its list of variables. -/
theorem C50_violated_isValid_short : ∃ d : Decomposition,
    (do let d := (make 2 1 1)
        let (_, d) ← d.addSubVariable 0 0
        let (_, d) ← d.addSubVariable 0 1
        let (_, d) ← d.addSubFactor 0 0 [0]
        pure d) = some d ∧
    d.isValid 2 [[0, 1]] = none :=
  ⟨_, rfl, by decide⟩

/-- For a model with more variables than the decomposition `isValid` reads behind the end of the lists. -/
theorem C50_violated_isValid_size : (make 1 0 0).isValid 2 [] = none := by decide

end Decomposition
end OpenGM
