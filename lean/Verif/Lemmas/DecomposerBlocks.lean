import Verif.Lemmas.Decomposer
/-
decomposeIntoOpenBlocks and decomposeIntoClosedBlocks.
-/
namespace OpenGM
namespace Decomposer
open Spec Decomposition
variable {n : Nat} {scopes : List (List Nat)}

theorem blockVars_spec {S m : Nat} (hS : n ≤ S) : ∀ (inner : List Nat) (d : Decomposition) (ids : List Nat), Reachable n scopes d → m < d.numModels →
    Mapped n S m d ids → inner.Nodup → (∀ v ∈ inner, v < n ∧ ids[v]? = some S) →
    ∃ d' ids', blockVars m inner d ids = some (d', ids') ∧ Reachable n scopes d' ∧ Mapped n S m d' ids' ∧ OnlyIn m d d' ∧ d'.facLists = d.facLists ∧
      (∀ v, varCopies d'.varLists m v = if v ∈ inner then 1 else varCopies d.varLists m v) := by
  intro inner
  induction inner with
  | nil =>
    intro d ids h _ hM _ _
    exact ⟨d, ids, rfl, h, hM, OnlyIn.refl m d, rfl, by simp⟩
  | cons v inner ih =>
    intro d ids h hm hM hnd hin
    rw [List.nodup_cons] at hnd
    obtain ⟨hv, hvS⟩ := hin v (by simp)
    obtain ⟨k, d1, e, r1, h1, h2, h3, h4, h4', _, h5, h6⟩ := addVar_step h hm hv
    obtain ⟨_, hM1⟩ := mapped_add hM hS hvS h1 h2 h5 h6
    obtain ⟨d2, ids2, e2, r2, M2, o2, f2, v2⟩ := ih d1 (ids.set v k) r1 (by rw [h3]; exact hm) hM1 hnd.2 (by
      intro w hw
      refine ⟨(hin w (by simp [hw])).1, ?_⟩
      rw [List.getElem?_set_ne (by rintro rfl; exact hnd.1 hw)]
      exact (hin w (by simp [hw])).2)
    have hvl : v < ids.length := by rw [hM.len]; exact hv
    refine ⟨d2, ids2, by simp only [blockVars, e, if_pos hvl, e2], r2, M2, (⟨h3, ?_, ?_⟩ : OnlyIn m d d1).trans o2, f2.trans h4, ?_⟩
    · intro m' v' hne
      rw [h5, if_neg (fun h => hne h.1)]
      rfl
    · intro m' f _
      rw [h4]
    · intro v'
      rw [v2, h5]
      by_cases e : v' = v
      · subst e
        simp [hM.free v' hvS]
      · simp [e]

theorem readAll_spec {S m : Nat} {d : Decomposition} {ids : List Nat} (hM : Mapped n S m d ids) : ∀ (vars : List Nat), (∀ v ∈ vars, v < n) →
    ∃ ks, readAll ids vars = some ks ∧ (ks.all (· ≠ S) = true ↔ ∀ v ∈ vars, 0 < varCopies d.varLists m v) ∧
      ((∀ v ∈ vars, 0 < varCopies d.varLists m v) → CopiesOf d.varLists m ks vars) := by
  intro vars
  induction vars with
  | nil =>
    intro _
    exact ⟨[], rfl, by simp, fun _ => .nil⟩
  | cons v vars ih =>
    intro hlt
    obtain ⟨k, hk⟩ : ∃ k, ids[v]? = some k := ⟨_, List.getElem?_eq_getElem (by rw [hM.len]; exact hlt v (by simp))⟩
    obtain ⟨ks, e, h1, h2⟩ := ih (fun w hw => hlt w (by simp [hw]))
    have hk' : k ≠ S ↔ 0 < varCopies d.varLists m v := by
      constructor
      · intro h
        rw [(hM.used v k hk h).1]
        exact Nat.one_pos
      · intro h e
        subst e
        rw [hM.free v hk] at h
        omega
    refine ⟨k :: ks, ?_, ?_, ?_⟩
    · unfold readAll at e ⊢
      rw [List.mapM_cons, hk]
      simp only [Option.pure_def, Option.bind_eq_bind, Option.bind_some, e]
    · rw [List.all_cons, Bool.and_eq_true, h1, decide_eq_true_iff, hk']
      simp
    · intro h
      exact .cons (hM.used v k hk (hk'.mpr (h v (by simp)))).2 (h2 (fun w hw => h w (by simp [hw])))

open Classical in
theorem openFold_spec {m : Nat} {ids : List Nat} (hsc : ∀ vars ∈ scopes, ∀ v ∈ vars, v < n) {d0 : Decomposition} :
    ∀ (todo : List (List Nat)) (i : Nat) (d : Decomposition), (∀ j : Nat, todo[j]? = scopes[i + j]?) → Reachable n scopes d → m < d.numModels → Mapped n maxSize m d ids →
    d.varLists = d0.varLists →
    ∃ d', (todo.zipIdx i).foldlM (openFactor m ids) d = some d' ∧ Reachable n scopes d' ∧ OnlyIn m d d' ∧ d'.varLists = d0.varLists ∧
      (∀ f, facCopies d'.facLists m f = facCopies d.facLists m f +
        if i ≤ f ∧ ∃ vars, scopes[f]? = some vars ∧ ∀ v ∈ vars, 0 < varCopies d0.varLists m v then 1 else 0) := by
  intro todo
  induction todo with
  | nil =>
    intro i d htodo h _ _ hv
    refine ⟨d, rfl, h, OnlyIn.refl m d, hv, ?_⟩
    intro f
    rw [if_neg, Nat.add_zero]
    rintro ⟨h1, vars, h2, _⟩
    have := htodo (f - i)
    rw [show i + (f - i) = f by omega, h2] at this
    simp at this
  | cons vars todo ih =>
    intro i d htodo h hm hM hv
    have hi : scopes[i]? = some vars := by
      have := htodo 0
      simp only [List.getElem?_cons_zero, Nat.add_zero] at this
      exact this.symm
    obtain ⟨ks, e, h1, h2⟩ := readAll_spec hM vars (hsc vars (List.mem_of_getElem? hi))
    have htodo' : ∀ j : Nat, todo[j]? = scopes[(i + 1) + j]? := by
      intro j
      have := htodo (j + 1)
      rw [List.getElem?_cons_succ, show i + (j + 1) = i + 1 + j by omega] at this
      exact this
    have hcomb : ∀ {d1 d2 : Decomposition} (c : Nat) (_ : c = if ∀ v ∈ vars, 0 < varCopies d0.varLists m v then 1 else 0)
        (_ : ∀ f, facCopies d1.facLists m f = facCopies d.facLists m f + if f = i then c else 0)
        (_ : ∀ f, facCopies d2.facLists m f = facCopies d1.facLists m f + if i + 1 ≤ f ∧ ∃ vars, scopes[f]? = some vars ∧ ∀ v ∈ vars, 0 < varCopies d0.varLists m v then 1 else 0),
        ∀ f, facCopies d2.facLists m f = facCopies d.facLists m f + if i ≤ f ∧ ∃ vars, scopes[f]? = some vars ∧ ∀ v ∈ vars, 0 < varCopies d0.varLists m v then 1 else 0 := by
      intro d1 d2 c hc a1 a2 f
      rw [a2, a1, Nat.add_assoc]
      congr 1
      by_cases e : f = i
      · subst e
        rw [if_pos rfl, if_neg (by omega), Nat.add_zero, hc]
        congr 1
        simp only [hi, Option.some.injEq, exists_eq_left', Nat.le_refl, true_and]
      · rw [if_neg e, Nat.zero_add]
        congr 1
        rw [show (i ≤ f) = (i + 1 ≤ f) from propext ⟨fun _ => by omega, fun _ => by omega⟩]
    by_cases hall : ∀ v ∈ vars, 0 < varCopies d.varLists m v
    · obtain ⟨k, d1, e1, r1, _, _, m1, v1, nv1, fc1, _⟩ := addFac_step h hm hi (h2 hall)
      obtain ⟨d2, e2, r2, o2, v2, f2⟩ := ih (i + 1) d1 htodo' r1 (by rw [m1]; exact hm) (mapped_congr hM v1 nv1) (v1.trans hv)
      refine ⟨d2, ?_, r2, (onlyIn_addFac m1 v1 fc1).trans o2, v2, hcomb 1 (by rw [if_pos (by rw [← hv]; exact hall)]) (by intro f; rw [fc1]; simp) f2⟩
      rw [List.zipIdx_cons, List.foldlM_cons]
      have : openFactor m ids d (vars, i) = some d1 := by
        simp only [openFactor, e, if_pos (h1.mpr hall), e1, Option.map_some]
      rw [this]
      exact e2
    · obtain ⟨d2, e2, r2, o2, v2, f2⟩ := ih (i + 1) d htodo' h hm hM hv
      refine ⟨d2, ?_, r2, o2, v2, hcomb 0 (by rw [if_neg (by rw [← hv]; exact hall)]) (by intro f; simp) f2⟩
      rw [List.zipIdx_cons, List.foldlM_cons]
      have : openFactor m ids d (vars, i) = some d := by
        simp only [openFactor, e]
        rw [if_neg (by rw [h1]; exact hall)]
      rw [this]
      exact e2

/-- The submodels are added one after the other. -/
theorem rounds_spec {α : Type} {step : Decomposition → α → Option Decomposition} {ok : α → Prop} {PV PF : α → Nat → Nat → Nat}
    (hstep : ∀ d a, Reachable n scopes d → ok a → ∃ d', step d a = some d' ∧ Reachable n scopes d' ∧ d'.numModels = d.numModels + 1 ∧
      (∀ m v, m ≠ d.numModels → varCopies d'.varLists m v = varCopies d.varLists m v) ∧ (∀ m f, m ≠ d.numModels → facCopies d'.facLists m f = facCopies d.facLists m f) ∧
      (∀ v, varCopies d'.varLists d.numModels v = PV a d.numModels v) ∧ (∀ f, facCopies d'.facLists d.numModels f = PF a d.numModels f)) :
    ∀ (as : List α) (d : Decomposition), Reachable n scopes d → (∀ a ∈ as, ok a) →
      ∃ d', as.foldlM step d = some d' ∧ Reachable n scopes d' ∧ d'.numModels = d.numModels + as.length ∧
        (∀ m v, m < d.numModels → varCopies d'.varLists m v = varCopies d.varLists m v) ∧ (∀ m f, m < d.numModels → facCopies d'.facLists m f = facCopies d.facLists m f) ∧
        (∀ (j : Nat) (a : α), as[j]? = some a → (∀ v, varCopies d'.varLists (d.numModels + j) v = PV a (d.numModels + j) v) ∧
          ∀ f, facCopies d'.facLists (d.numModels + j) f = PF a (d.numModels + j) f) := by
  intro as
  induction as with
  | nil =>
    intro d h _
    exact ⟨d, rfl, h, rfl, fun _ _ _ => rfl, fun _ _ _ => rfl, by simp⟩
  | cons a as ih =>
    intro d h hok
    obtain ⟨d1, e1, r1, n1, v1, f1, pv1, pf1⟩ := hstep d a h (hok a (by simp))
    obtain ⟨d2, e2, r2, n2, v2, f2, g2⟩ := ih d1 r1 (fun b hb => hok b (by simp [hb]))
    refine ⟨d2, by rw [List.foldlM_cons, e1]; exact e2, r2, by rw [n2, n1, List.length_cons]; omega, ?_, ?_, ?_⟩
    · intro m v hm
      rw [v2 m v (by omega), v1 m v (by omega)]
    · intro m f hm
      rw [f2 m f (by omega), f1 m f (by omega)]
    · intro j b hj
      cases j with
      | zero =>
        simp only [List.getElem?_cons_zero, Option.some.injEq] at hj
        subst hj
        constructor
        · intro v
          rw [Nat.add_zero, v2 _ v (by omega), pv1]
        · intro f
          rw [Nat.add_zero, f2 _ f (by omega), pf1]
      | succ j =>
        simp only [List.getElem?_cons_succ] at hj
        have := g2 j b hj
        rw [show d1.numModels + j = d.numModels + (j + 1) by omega] at this
        exact this

/-- The state after addSubModel. -/
theorem newModel {S : Nat} {d : Decomposition} (h : Reachable n scopes d) : Reachable n scopes d.addSubModel.2 ∧ d.numModels < d.addSubModel.2.numModels ∧
    Mapped n S d.numModels d.addSubModel.2 (List.replicate n S) ∧ (∀ f, facCopies d.addSubModel.2.facLists d.numModels f = 0) ∧
    (∀ v, varCopies d.addSubModel.2.varLists d.numModels v = 0) := by
  obtain ⟨r, _, nm, vl, fl⟩ := addModel_step h
  have h0 : ∀ v, varCopies d.addSubModel.2.varLists d.numModels v = 0 := by
    intro v
    rw [vl]
    exact varCopies_new h (Nat.le_refl _) v
  refine ⟨r, by rw [nm]; omega, mapped_fresh h0 (numSubVars_zero r (by rw [nm]; omega) h0), ?_, h0⟩
  intro f
  rw [fl]
  exact facCopies_new h (Nat.le_refl _) f

open Classical in
theorem openBlock_spec (hn : n ≤ maxSize) (hsc : ∀ vars ∈ scopes, ∀ v ∈ vars, v < n) {d : Decomposition} {inner : List Nat} (h : Reachable n scopes d)
    (hin : inner.Nodup ∧ ∀ v ∈ inner, v < n) :
    ∃ d', openBlock n scopes d inner = some d' ∧ Reachable n scopes d' ∧ d'.numModels = d.numModels + 1 ∧
      (∀ m v, m ≠ d.numModels → varCopies d'.varLists m v = varCopies d.varLists m v) ∧ (∀ m f, m ≠ d.numModels → facCopies d'.facLists m f = facCopies d.facLists m f) ∧
      (∀ v, varCopies d'.varLists d.numModels v = if v ∈ inner then 1 else 0) ∧
      (∀ f, facCopies d'.facLists d.numModels f = if ∃ vars, scopes[f]? = some vars ∧ ∀ v ∈ vars, v ∈ inner then 1 else 0) := by
  obtain ⟨r0, hm0, M0, f0, v0⟩ := newModel (S := maxSize) h
  obtain ⟨d1, ids, e1, r1, M1, o1, fl1, v1⟩ := blockVars_spec hn inner _ _ r0 hm0 M0 hin.1 (by
    intro v hv
    exact ⟨hin.2 v hv, by rw [List.getElem?_replicate, if_pos (hin.2 v hv)]⟩)
  obtain ⟨d2, e2, r2, o2, v2, f2⟩ := openFold_spec (m := d.numModels) (ids := ids) hsc (d0 := d1) scopes 0 d1 (by simp) r1 (by rw [o1.models]; exact hm0) M1 rfl
  have o := o1.trans o2
  refine ⟨d2, ?_, r2, o.models, ?_, ?_, ?_, ?_⟩
  · have hfst : d.addSubModel.1 = d.numModels := rfl
    simp only [openBlock, hfst, e1, e2]
  · intro m v hm
    rw [o.vars m v hm]
    rfl
  · intro m f hm
    rw [o.facs m f hm]
    rfl
  · intro v
    rw [v2, v1, v0]
  · intro f
    rw [f2, fl1, f0, Nat.zero_add]
    congr 1
    apply propext
    simp only [Nat.zero_le, true_and]
    have : ∀ v, 0 < varCopies d1.varLists d.numModels v ↔ v ∈ inner := by
      intro v
      rw [v1, v0]
      by_cases e : v ∈ inner <;> simp [e]
    simp only [this]

open Classical in
theorem closedFold_spec (hn : n ≤ maxSize) {m : Nat} {inner : List Nat} (hsc : ∀ vars ∈ scopes, ∀ v ∈ vars, v < n) :
    ∀ (todo : List (List Nat)) (i : Nat) (d : Decomposition) (ids : List Nat), (∀ j : Nat, todo[j]? = scopes[i + j]?) → Reachable n scopes d → m < d.numModels →
    Mapped n maxSize m d ids →
    ∃ d' ids', (todo.zipIdx i).foldlM (closedFactor scopes m inner) (d, ids) = some (d', ids') ∧ Reachable n scopes d' ∧ OnlyIn m d d' ∧
      (∀ v, varCopies d'.varLists m v = if ∃ vars ∈ todo, v ∈ vars ∧ ∃ w ∈ vars, w ∈ inner then 1 else varCopies d.varLists m v) ∧
      (∀ f, facCopies d'.facLists m f = facCopies d.facLists m f +
        if i ≤ f ∧ ∃ vars, scopes[f]? = some vars ∧ (vars = [] ∨ ∃ w ∈ vars, w ∈ inner) then 1 else 0) := by
  intro todo
  induction todo with
  | nil =>
    intro i d ids htodo h _ _
    refine ⟨d, ids, rfl, h, OnlyIn.refl m d, by simp, ?_⟩
    intro f
    rw [if_neg, Nat.add_zero]
    rintro ⟨h1, vars, h2, _⟩
    have := htodo (f - i)
    rw [show i + (f - i) = f by omega, h2] at this
    simp at this
  | cons vars todo ih =>
    intro i d ids htodo h hm hM
    have hi : scopes[i]? = some vars := by
      have := htodo 0
      simp only [List.getElem?_cons_zero, Nat.add_zero] at this
      exact this.symm
    have htodo' : ∀ j : Nat, todo[j]? = scopes[(i + 1) + j]? := by
      intro j
      have := htodo (j + 1)
      rw [List.getElem?_cons_succ, show i + (j + 1) = i + 1 + j by omega] at this
      exact this
    have step : ∃ d1 ids1, closedFactor scopes m inner (d, ids) (vars, i) = some (d1, ids1) ∧ Reachable n scopes d1 ∧ Mapped n maxSize m d1 ids1 ∧ OnlyIn m d d1 ∧
        (∀ v, varCopies d1.varLists m v = if v ∈ vars ∧ ∃ w ∈ vars, w ∈ inner then 1 else varCopies d.varLists m v) ∧
        (∀ f, facCopies d1.facLists m f = facCopies d.facLists m f + if f = i ∧ (vars = [] ∨ ∃ w ∈ vars, w ∈ inner) then 1 else 0) := by
      by_cases hnil : vars = []
      · subst hnil
        obtain ⟨k, d1, e1, r1, _, _, m1, v1, nv1, fc1, _⟩ := addFac_step h hm hi .nil
        refine ⟨d1, ids, by simp only [closedFactor, e1], r1, mapped_congr hM v1 nv1, onlyIn_addFac m1 v1 fc1, ?_, ?_⟩
        · intro v
          rw [v1]
          simp
        · intro f
          rw [fc1]
          simp
      · have hcf : closedFactor scopes m inner (d, ids) (vars, i) =
            if vars.any (fun v => decide (v ∈ inner)) then placeFactor scopes maxSize m (d, ids) i else some (d, ids) := by
          cases vars with
          | nil => exact absurd rfl hnil
          | cons a b => rfl
        by_cases hany : ∃ w ∈ vars, w ∈ inner
        · obtain ⟨d1, ids1, e1, r1, M1, o1, v1, f1⟩ := placeFactor_spec hn hsc h hm hM hi
          refine ⟨d1, ids1, ?_, r1, M1, o1, ?_, ?_⟩
          · rw [hcf, if_pos, e1]
            rw [List.any_eq_true]
            obtain ⟨w, h1, h2⟩ := hany
            exact ⟨w, h1, by simpa using h2⟩
          · intro v
            rw [v1]
            congr 1
            exact propext ⟨fun a => ⟨a, hany⟩, fun a => a.1⟩
          · intro f
            rw [f1]
            congr 2
            exact propext ⟨fun a => ⟨a, Or.inr hany⟩, fun a => a.1⟩
        · refine ⟨d, ids, ?_, h, hM, OnlyIn.refl m d, ?_, ?_⟩
          · rw [hcf, if_neg]
            rw [List.any_eq_true]
            rintro ⟨w, h1, h2⟩
            exact hany ⟨w, h1, by simpa using h2⟩
          · intro v
            rw [if_neg (fun a => hany a.2)]
          · intro f
            rw [if_neg, Nat.add_zero]
            rintro ⟨_, a | a⟩
            · exact hnil a
            · exact hany a
    obtain ⟨d1, ids1, e1, r1, M1, o1, v1, f1⟩ := step
    obtain ⟨d2, ids2, e2, r2, o2, v2, f2⟩ := ih (i + 1) d1 ids1 htodo' r1 (by rw [o1.models]; exact hm) M1
    refine ⟨d2, ids2, ?_, r2, o1.trans o2, ?_, ?_⟩
    · rw [List.zipIdx_cons, List.foldlM_cons, e1]
      exact e2
    · intro v
      rw [v2, v1]
      by_cases a : ∃ vars ∈ todo, v ∈ vars ∧ ∃ w ∈ vars, w ∈ inner
      · rw [if_pos a, if_pos]
        obtain ⟨x, h1, h2⟩ := a
        exact ⟨x, by simp [h1], h2⟩
      · rw [if_neg a]
        by_cases b : v ∈ vars ∧ ∃ w ∈ vars, w ∈ inner
        · rw [if_pos b, if_pos ⟨vars, by simp, b⟩]
        · rw [if_neg b, if_neg]
          rintro ⟨x, h1, h2⟩
          rcases List.mem_cons.mp h1 with h1 | h1
          · subst h1
            exact b h2
          · exact a ⟨x, h1, h2⟩
    · intro f
      rw [f2, f1, Nat.add_assoc]
      congr 1
      by_cases e : f = i
      · subst e
        rw [if_neg (by omega : ¬ (f + 1 ≤ f ∧ _)), Nat.add_zero]
        congr 1
        simp only [hi, Option.some.injEq, exists_eq_left', Nat.le_refl, true_and]
      · rw [if_neg (fun h => e h.1), Nat.zero_add]
        congr 1
        rw [show (i ≤ f) = (i + 1 ≤ f) from propext ⟨fun _ => by omega, fun _ => by omega⟩]

open Classical in
theorem closedBlock_spec (hn : n ≤ maxSize) (hsc : ∀ vars ∈ scopes, ∀ v ∈ vars, v < n) {d : Decomposition} {inner : List Nat} (h : Reachable n scopes d)
    (hin : inner.Nodup ∧ ∀ v ∈ inner, v < n) :
    ∃ d', closedBlock n scopes d inner = some d' ∧ Reachable n scopes d' ∧ d'.numModels = d.numModels + 1 ∧
      (∀ m v, m ≠ d.numModels → varCopies d'.varLists m v = varCopies d.varLists m v) ∧ (∀ m f, m ≠ d.numModels → facCopies d'.facLists m f = facCopies d.facLists m f) ∧
      (∀ v, varCopies d'.varLists d.numModels v = if v ∈ inner ∨ ∃ vars ∈ scopes, v ∈ vars ∧ ∃ w ∈ vars, w ∈ inner then 1 else 0) ∧
      (∀ f, facCopies d'.facLists d.numModels f = if ∃ vars, scopes[f]? = some vars ∧ (vars = [] ∨ ∃ w ∈ vars, w ∈ inner) then 1 else 0) := by
  obtain ⟨r0, hm0, M0, f0, v0⟩ := newModel (S := maxSize) h
  obtain ⟨d1, ids, e1, r1, M1, o1, fl1, v1⟩ := blockVars_spec hn inner _ _ r0 hm0 M0 hin.1 (by
    intro v hv
    exact ⟨hin.2 v hv, by rw [List.getElem?_replicate, if_pos (hin.2 v hv)]⟩)
  obtain ⟨d2, ids2, e2, r2, o2, v2, f2⟩ := closedFold_spec hn (m := d.numModels) (inner := inner) hsc scopes 0 d1 ids (by simp) r1 (by rw [o1.models]; exact hm0) M1
  have o := o1.trans o2
  refine ⟨d2, ?_, r2, o.models, ?_, ?_, ?_, ?_⟩
  · have hfst : d.addSubModel.1 = d.numModels := rfl
    simp only [closedBlock, hfst, e1, e2, Option.map_some]
  · intro m v hm
    rw [o.vars m v hm]
    rfl
  · intro m f hm
    rw [o.facs m f hm]
    rfl
  · intro v
    rw [v2, v1, v0]
    by_cases a : ∃ vars ∈ scopes, v ∈ vars ∧ ∃ w ∈ vars, w ∈ inner
    · rw [if_pos a, if_pos (Or.inr a)]
    · rw [if_neg a]
      by_cases b : v ∈ inner
      · rw [if_pos b, if_pos (Or.inl b)]
      · rw [if_neg b, if_neg]
        rintro (c | c)
        · exact b c
        · exact a c
  · intro f
    rw [f2, fl1, f0, Nat.zero_add]
    congr 1
    simp only [Nat.zero_le, true_and]

end Decomposer
end OpenGM
