import Verif.Model.Decomposer
import Verif.Spec.Decomposer
import Verif.Props.Decomposition
import Verif.Lemmas.StarGraph
/-
GraphicalModelDecomposer: the effect of the elementary steps on the copies, and the simple decomposers.
-/
namespace OpenGM
namespace Decomposer
open Spec Decomposition

theorem varCopies_set {L : List (List SubVariable)} {v : Nat} {l : List SubVariable} (h : L[v]? = some l) (x : SubVariable) (m v' : Nat) :
    varCopies (L.set v (l ++ [x])) m v' = varCopies L m v' + if m = x.model ∧ v' = v then 1 else 0 := by
  have hv : v < L.length := (List.getElem?_eq_some_iff.mp h).1
  unfold varCopies
  by_cases e : v = v'
  · subst e
    rw [List.getElem?_set_self hv, h]
    simp only [Option.getD_some, List.countP_append, List.countP_cons, List.countP_nil, and_true, decide_eq_true_eq, Nat.zero_add]
    by_cases hx : x.model = m
    · rw [if_pos hx, if_pos hx.symm]
    · rw [if_neg hx, if_neg (fun h => hx h.symm)]
  · rw [List.getElem?_set_ne e, if_neg (fun h => e h.2.symm), Nat.add_zero]

theorem facCopies_set {L : List (List SubFactor)} {f : Nat} {l : List SubFactor} (h : L[f]? = some l) (x : SubFactor) (m f' : Nat) :
    facCopies (L.set f (l ++ [x])) m f' = facCopies L m f' + if m = x.model ∧ f' = f then 1 else 0 := by
  have hv : f < L.length := (List.getElem?_eq_some_iff.mp h).1
  unfold facCopies
  by_cases e : f = f'
  · subst e
    rw [List.getElem?_set_self hv, h]
    simp only [Option.getD_some, List.countP_append, List.countP_cons, List.countP_nil, and_true, decide_eq_true_eq, Nat.zero_add]
    by_cases hx : x.model = m
    · rw [if_pos hx, if_pos hx.symm]
    · rw [if_neg hx, if_neg (fun h => hx h.symm)]
  · rw [List.getElem?_set_ne e, if_neg (fun h => e h.2.symm), Nat.add_zero]

variable {n : Nat} {scopes : List (List Nat)}

/-- One call of addSubVariable. -/
theorem addVar_step {d : Decomposition} (h : Reachable n scopes d) {m v : Nat} (hm : m < d.numModels) (hv : v < n) :
    ∃ k d', d.addSubVariable m v = some (k, d') ∧ Reachable n scopes d' ∧ d.numSubVars[m]? = some k ∧ d'.numSubVars = d.numSubVars.set m (k + 1) ∧
      d'.numModels = d.numModels ∧ d'.facLists = d.facLists ∧ d'.numSubFactors = d.numSubFactors ∧ d'.empty = d.empty ∧
      (∀ m' v', varCopies d'.varLists m' v' = varCopies d.varLists m' v' + if m' = m ∧ v' = v then 1 else 0) ∧
      (∀ m' k' v', CopyOf d'.varLists m' k' v' ↔ CopyOf d.varLists m' k' v' ∨ (m' = m ∧ k' = k ∧ v' = v)) := by
  obtain ⟨hn, w⟩ := h.inv
  obtain ⟨k, l, h1, h2, e, _⟩ := addSubVariable_spec w hm (by rw [hn]; exact hv)
  refine ⟨k, _, e, h.addSubVariable hm hv e, h1, rfl, rfl, rfl, rfl, rfl, fun m' v' => varCopies_set h2 ⟨m, k⟩ m' v', ?_⟩
  intro m' k' v'
  exact copyOf_set h2 m k m' k' v'

/-- One call of addSubFactor. -/
theorem addFac_step {d : Decomposition} (h : Reachable n scopes d) {m f : Nat} {ids vars : List Nat} (hm : m < d.numModels) (hs : scopes[f]? = some vars)
    (hc : CopiesOf d.varLists m ids vars) :
    ∃ k d', d.addSubFactor m f ids = some (k, d') ∧ Reachable n scopes d' ∧ d.numSubFactors[m]? = some k ∧ d'.numSubFactors = d.numSubFactors.set m (k + 1) ∧
      d'.numModels = d.numModels ∧ d'.varLists = d.varLists ∧ d'.numSubVars = d.numSubVars ∧
      (∀ m' f', facCopies d'.facLists m' f' = facCopies d.facLists m' f' + if m' = m ∧ f' = f then 1 else 0) ∧
      (∀ s, s ∈ d'.facLists.flatten ↔ s ∈ d.facLists.flatten ∨ s = ⟨m, some k, ids⟩) := by
  obtain ⟨hn, w⟩ := h.inv
  obtain ⟨k, l, h1, h2, e, _⟩ := addSubFactor_spec w hm hs hc
  refine ⟨k, _, e, h.addSubFactor hm hs hc e, h1, rfl, rfl, rfl, rfl, fun m' f' => facCopies_set h2 ⟨m, some k, ids⟩ m' f', ?_⟩
  intro s
  simp only
  rw [(flatten_set_perm (⟨m, some k, ids⟩ : SubFactor) h2).mem_iff, List.mem_cons]
  exact or_comm

/-- One call of addSubModel. -/
theorem addModel_step {d : Decomposition} (h : Reachable n scopes d) : Reachable n scopes d.addSubModel.2 ∧ d.addSubModel.1 = d.numModels ∧
    d.addSubModel.2.numModels = d.numModels + 1 ∧ d.addSubModel.2.varLists = d.varLists ∧ d.addSubModel.2.facLists = d.facLists :=
  ⟨h.addSubModel, rfl, rfl, rfl, rfl⟩

/-- A submodel that does not exist yet has no copies. -/
theorem varCopies_new {d : Decomposition} (h : Reachable n scopes d) {m : Nat} (hm : d.numModels ≤ m) (v : Nat) : varCopies d.varLists m v = 0 := by
  obtain ⟨hn, w⟩ := h.inv
  unfold varCopies
  rw [List.countP_eq_zero]
  intro s hs
  simp only [decide_eq_true_eq]
  intro e
  cases hv : d.varLists[v]? with
  | none => rw [hv] at hs; simp at hs
  | some l =>
    rw [hv] at hs
    have := copyModel_lt w (m := s.model) (k := s.id) (v := v) ⟨l, hv, hs⟩
    omega

theorem facCopies_new {d : Decomposition} (h : Reachable n scopes d) {m : Nat} (hm : d.numModels ≤ m) (f : Nat) : facCopies d.facLists m f = 0 := by
  obtain ⟨hn, w⟩ := h.inv
  unfold facCopies
  rw [List.countP_eq_zero]
  intro s hs
  simp only [decide_eq_true_eq]
  intro e
  cases hv : d.facLists[f]? with
  | none => rw [hv] at hs; simp at hs
  | some l =>
    rw [hv] at hs
    have := (w.copies f l s hv hs).1
    omega

theorem varCopies_pos {L : List (List SubVariable)} {m v : Nat} : 0 < varCopies L m v ↔ ∃ k, CopyOf L m k v := by
  unfold varCopies CopyOf
  rw [List.countP_pos_iff]
  cases h : L[v]? with
  | none => simp
  | some l =>
    simp only [Option.getD_some, decide_eq_true_eq, Option.some.injEq]
    constructor
    · rintro ⟨s, h1, h2⟩
      exact ⟨s.id, l, rfl, by rw [← h2]; exact h1⟩
    · rintro ⟨k, l', rfl, h1⟩
      exact ⟨_, h1, rfl⟩

theorem facCopies_pos {L : List (List SubFactor)} {f m : Nat} (h : 0 < facCopies L m f) : f < L.length ∧ L[f]? ≠ some [] := by
  unfold facCopies at h
  cases hf : L[f]? with
  | none => rw [hf] at h; simp at h
  | some l =>
    refine ⟨(List.getElem?_eq_some_iff.mp hf).1, ?_⟩
    intro e
    rw [hf] at h
    injection e with e
    subst e
    simp at h

theorem varCopies_reorder {d d' : Decomposition} (h : Reachable n scopes d) (he : d.reorder = some d') (m v : Nat) :
    varCopies d'.varLists m v = varCopies d.varLists m v := by
  obtain ⟨⟨π, _, e, _⟩, _⟩ := C50_reorder h he
  unfold varCopies
  rw [e, List.getElem?_map]
  cases d.varLists[v]? with
  | none => rfl
  | some l =>
    simp only [Option.map_some, Option.getD_some, List.countP_map]
    rfl

theorem facCopies_reorder {d d' : Decomposition} (h : Reachable n scopes d) (he : d.reorder = some d') (m v : Nat) :
    facCopies d'.facLists m v = facCopies d.facLists m v := by
  obtain ⟨⟨π, _, _, e, _⟩, _⟩ := C50_reorder h he
  unfold facCopies
  rw [e, List.getElem?_map]
  cases d.facLists[v]? with
  | none => rfl
  | some l =>
    simp only [Option.map_some, Option.getD_some, List.countP_map]
    rfl

/-- What a round for submodel `m` leaves alone: the copies in the other submodels. -/
structure OnlyIn (m : Nat) (d d' : Decomposition) : Prop where
  models : d'.numModels = d.numModels
  vars : ∀ m' v, m' ≠ m → varCopies d'.varLists m' v = varCopies d.varLists m' v
  facs : ∀ m' f, m' ≠ m → facCopies d'.facLists m' f = facCopies d.facLists m' f

theorem OnlyIn.refl (m : Nat) (d : Decomposition) : OnlyIn m d d := ⟨rfl, fun _ _ _ => rfl, fun _ _ _ => rfl⟩

theorem OnlyIn.trans {m : Nat} {a b c : Decomposition} (h : OnlyIn m a b) (h' : OnlyIn m b c) : OnlyIn m a c :=
  ⟨h'.models.trans h.models, fun m' v hm => (h'.vars m' v hm).trans (h.vars m' v hm), fun m' f hm => (h'.facs m' f hm).trans (h.facs m' f hm)⟩

/-- The table of the copies in submodel `m`: the entry is the sentinel (no copy) or the number of the only copy. -/
structure Mapped (n S m : Nat) (d : Decomposition) (ids : List Nat) : Prop where
  len : ids.length = n
  free : ∀ v : Nat, ids[v]? = some S → varCopies d.varLists m v = 0
  used : ∀ v k : Nat, ids[v]? = some k → k ≠ S → varCopies d.varLists m v = 1 ∧ CopyOf d.varLists m k v
  count : d.numSubVars[m]? = some (ids.countP (fun k => k ≠ S))

theorem mapped_fresh {S : Nat} {d : Decomposition} {m : Nat} (h0 : ∀ v, varCopies d.varLists m v = 0) (hm : d.numSubVars[m]? = some 0) :
    Mapped n S m d (List.replicate n S) where
  len := by simp
  free := fun v _ => h0 v
  used := by
    intro v k hk hne
    rw [List.getElem?_replicate] at hk
    split at hk
    · injection hk with hk
      exact absurd hk.symm hne
    · exact absurd hk (by simp)
  count := by
    rw [hm, List.countP_replicate]
    simp

theorem countP_set_new {S k v : Nat} {ids : List Nat} (h : ids[v]? = some S) (hk : k ≠ S) :
    (ids.set v k).countP (fun k => k ≠ S) = ids.countP (fun k => k ≠ S) + 1 := by
  obtain ⟨hv, he⟩ := List.getElem?_eq_some_iff.mp h
  rw [List.countP_set]
  · simp [he, hk]
  · exact hv

theorem countP_lt_of {S v : Nat} {ids : List Nat} (h : ids[v]? = some S) : ids.countP (fun k => k ≠ S) < ids.length := by
  rcases Nat.lt_or_ge (ids.countP (fun k => k ≠ S)) ids.length with h1 | h1
  · exact h1
  · exfalso
    have : ids.countP (fun k => k ≠ S) = ids.length := Nat.le_antisymm List.countP_le_length h1
    rw [List.countP_eq_length] at this
    have := this S (List.mem_of_getElem? h)
    simp at this

/-- Setting the entry of a variable that has just been added. -/
theorem mapped_add {S m v k : Nat} {d d' : Decomposition} {ids : List Nat} (hM : Mapped n S m d ids) (hS : n ≤ S) (hv : ids[v]? = some S)
    (hk : d.numSubVars[m]? = some k) (hk' : d'.numSubVars = d.numSubVars.set m (k + 1))
    (hvc : ∀ m' v', varCopies d'.varLists m' v' = varCopies d.varLists m' v' + if m' = m ∧ v' = v then 1 else 0)
    (hco : ∀ m' k' v', CopyOf d'.varLists m' k' v' ↔ CopyOf d.varLists m' k' v' ∨ (m' = m ∧ k' = k ∧ v' = v)) :
    k ≠ S ∧ Mapped n S m d' (ids.set v k) := by
  have hvl : v < ids.length := (List.getElem?_eq_some_iff.mp hv).1
  have hkc : k = ids.countP (fun k => k ≠ S) := by
    have := hM.count
    rw [hk] at this
    injection this
  have hkS : k ≠ S := by
    have := countP_lt_of hv
    rw [hM.len] at this
    omega
  refine ⟨hkS, ⟨by simp [hM.len], ?_, ?_, ?_⟩⟩
  · intro v' hv'
    by_cases e : v = v'
    · subst e
      rw [List.getElem?_set_self hvl] at hv'
      injection hv' with hv'
      exact absurd hv' hkS
    · rw [List.getElem?_set_ne e] at hv'
      rw [hvc, hM.free v' hv', if_neg (fun h => e h.2.symm)]
  · intro v' k' hv' hne
    by_cases e : v = v'
    · subst e
      rw [List.getElem?_set_self hvl] at hv'
      injection hv' with hv'
      subst hv'
      rw [hvc, hM.free v hv, if_pos ⟨rfl, rfl⟩]
      exact ⟨rfl, (hco m k v).mpr (Or.inr ⟨rfl, rfl, rfl⟩)⟩
    · rw [List.getElem?_set_ne e] at hv'
      obtain ⟨h1, h2⟩ := hM.used v' k' hv' hne
      rw [hvc, h1, if_neg (fun h => e h.2.symm)]
      exact ⟨rfl, (hco m k' v').mpr (Or.inl h2)⟩
  · rw [hk', List.getElem?_set_self (List.getElem?_eq_some_iff.mp hk).1, countP_set_new hv hkS, hkc]

theorem mapVars_spec {S m : Nat} (hS : n ≤ S) : ∀ (vars : List Nat) (d : Decomposition) (ids : List Nat), Reachable n scopes d → m < d.numModels →
    Mapped n S m d ids → (∀ v ∈ vars, v < n) →
    ∃ ks d' ids', mapVars S m vars d ids = some (ks, d', ids') ∧ Reachable n scopes d' ∧ Mapped n S m d' ids' ∧ CopiesOf d'.varLists m ks vars ∧
      OnlyIn m d d' ∧ d'.facLists = d.facLists ∧ d'.numSubFactors = d.numSubFactors ∧
      (∀ v, varCopies d'.varLists m v = if v ∈ vars then 1 else varCopies d.varLists m v) ∧
      (∀ k v, CopyOf d.varLists m k v → CopyOf d'.varLists m k v) := by
  intro vars
  induction vars with
  | nil =>
    intro d ids h hm hM _
    exact ⟨[], d, ids, rfl, h, hM, .nil, OnlyIn.refl m d, rfl, rfl, by simp, fun _ _ h => h⟩
  | cons v vars ih =>
    intro d ids h hm hM hlt
    have hv : v < n := hlt v (by simp)
    obtain ⟨k0, hk0⟩ : ∃ k0, ids[v]? = some k0 := ⟨_, List.getElem?_eq_getElem (by rw [hM.len]; exact hv)⟩
    have step : ∃ k d1 ids1, mapVar S m d ids v = some (k, d1, ids1) ∧ Reachable n scopes d1 ∧ Mapped n S m d1 ids1 ∧ CopyOf d1.varLists m k v ∧
        OnlyIn m d d1 ∧ d1.facLists = d.facLists ∧ d1.numSubFactors = d.numSubFactors ∧
        (∀ v', varCopies d1.varLists m v' = if v' = v then 1 else varCopies d.varLists m v') ∧
        (∀ k v, CopyOf d.varLists m k v → CopyOf d1.varLists m k v) := by
      by_cases hs : k0 = S
      · subst hs
        obtain ⟨k, d', e, r', h1, h2, h3, h4, h4', _, h5, h6⟩ := addVar_step h hm hv
        obtain ⟨_, hM'⟩ := mapped_add hM hS hk0 h1 h2 h5 h6
        refine ⟨k, d', ids.set v k, by simp only [mapVar, hk0, if_true, e], r', hM', (h6 m k v).mpr (Or.inr ⟨rfl, rfl, rfl⟩), ⟨h3, ?_, ?_⟩, h4, h4', ?_, ?_⟩
        · intro m' v' hne
          rw [h5, if_neg (fun h => hne h.1)]
          rfl
        · intro m' f _
          rw [h4]
        · intro v'
          rw [h5]
          by_cases e : v' = v
          · subst e
            rw [if_pos ⟨rfl, rfl⟩, if_pos rfl, hM.free v' hk0]
          · rw [if_neg (fun h => e h.2), if_neg e]
            rfl
        · intro k' v' hc
          exact (h6 m k' v').mpr (Or.inl hc)
      · obtain ⟨h1, h2⟩ := hM.used v k0 hk0 hs
        refine ⟨k0, d, ids, by simp only [mapVar, hk0, if_neg hs], h, hM, h2, OnlyIn.refl m d, rfl, rfl, ?_, fun _ _ h => h⟩
        intro v'
        split
        · rename_i e
          subst e
          exact h1
        · rfl
    obtain ⟨k, d1, ids1, e1, r1, M1, c1, o1, f1, sf1, v1, m1⟩ := step
    obtain ⟨ks, d2, ids2, e2, r2, M2, c2, o2, f2, sf2, v2, m2⟩ := ih d1 ids1 r1 (by rw [o1.models]; exact hm) M1 (fun w hw => hlt w (by simp [hw]))
    refine ⟨k :: ks, d2, ids2, by simp only [mapVars, e1, e2], r2, M2, .cons (m2 k v c1) c2, o1.trans o2, f2.trans f1, sf2.trans sf1, ?_, fun k v hc => m2 k v (m1 k v hc)⟩
    intro v'
    rw [v2, v1]
    by_cases e : v' ∈ vars
    · simp [e]
    · by_cases e' : v' = v <;> simp [e, e']

theorem onlyIn_addFac {d d' : Decomposition} {m f : Nat} (h1 : d'.numModels = d.numModels) (h2 : d'.varLists = d.varLists)
    (h3 : ∀ m' f', facCopies d'.facLists m' f' = facCopies d.facLists m' f' + if m' = m ∧ f' = f then 1 else 0) : OnlyIn m d d' :=
  ⟨h1, fun _ _ _ => by rw [h2], fun m' f' hne => by rw [h3, if_neg (fun h => hne h.1)]; rfl⟩

theorem mapped_congr {S m : Nat} {d d' : Decomposition} {ids : List Nat} (h : Mapped n S m d ids) (h1 : d'.varLists = d.varLists) (h2 : d'.numSubVars = d.numSubVars) :
    Mapped n S m d' ids where
  len := h.len
  free := by rw [h1]; exact h.free
  used := by rw [h1]; exact h.used
  count := by rw [h2]; exact h.count

theorem placeFactor_spec {S m f : Nat} (hS : n ≤ S) (hsc : ∀ vars ∈ scopes, ∀ v ∈ vars, v < n) {d : Decomposition} {ids vars : List Nat}
    (h : Reachable n scopes d) (hm : m < d.numModels) (hM : Mapped n S m d ids) (hf : scopes[f]? = some vars) :
    ∃ d' ids', placeFactor scopes S m (d, ids) f = some (d', ids') ∧ Reachable n scopes d' ∧ Mapped n S m d' ids' ∧ OnlyIn m d d' ∧
      (∀ v, varCopies d'.varLists m v = if v ∈ vars then 1 else varCopies d.varLists m v) ∧
      (∀ f', facCopies d'.facLists m f' = facCopies d.facLists m f' + if f' = f then 1 else 0) := by
  obtain ⟨ks, d1, ids1, e1, r1, M1, c1, o1, f1, _, v1, _⟩ := mapVars_spec hS vars d ids h hm hM (hsc vars (List.mem_of_getElem? hf))
  obtain ⟨k, d2, e2, r2, _, _, m2, v2, nv2, fc2, _⟩ := addFac_step r1 (by rw [o1.models]; exact hm) hf c1
  refine ⟨d2, ids1, by simp only [placeFactor, hf, e1, e2], r2, mapped_congr M1 v2 nv2, o1.trans (onlyIn_addFac m2 v2 fc2), ?_, ?_⟩
  · intro v
    rw [v2, v1]
  · intro f'
    rw [fc2, f1]
    simp

theorem placeFold_spec {S m : Nat} (hS : n ≤ S) (hsc : ∀ vars ∈ scopes, ∀ v ∈ vars, v < n) : ∀ (fs : List Nat) (d : Decomposition) (ids : List Nat),
    (∀ f ∈ fs, f < scopes.length) → Reachable n scopes d → m < d.numModels → Mapped n S m d ids →
    ∃ d' ids', fs.foldlM (placeFactor scopes S m) (d, ids) = some (d', ids') ∧ Reachable n scopes d' ∧ OnlyIn m d d' ∧
      (∀ v, varCopies d'.varLists m v = if (∃ f ∈ fs, ∃ vars, scopes[f]? = some vars ∧ v ∈ vars) then 1 else varCopies d.varLists m v) ∧
      (∀ f', facCopies d'.facLists m f' = facCopies d.facLists m f' + fs.count f') := by
  intro fs
  induction fs with
  | nil =>
    intro d ids _ h _ hM
    exact ⟨d, ids, rfl, h, OnlyIn.refl m d, by simp, by simp⟩
  | cons f fs ih =>
    intro d ids hlt h hm hM
    obtain ⟨vars, hf⟩ : ∃ vars, scopes[f]? = some vars := ⟨_, List.getElem?_eq_getElem (hlt f (by simp))⟩
    obtain ⟨d1, ids1, e1, r1, M1, o1, v1, f1⟩ := placeFactor_spec hS hsc h hm hM hf
    obtain ⟨d2, ids2, e2, r2, o2, v2, f2⟩ := ih d1 ids1 (fun g hg => hlt g (by simp [hg])) r1 (by rw [o1.models]; exact hm) M1
    refine ⟨d2, ids2, by rw [List.foldlM_cons, e1]; exact e2, r2, o1.trans o2, ?_, ?_⟩
    · intro v
      rw [v2, v1]
      by_cases a : ∃ f ∈ fs, ∃ vars, scopes[f]? = some vars ∧ v ∈ vars
      · rw [if_pos a, if_pos]
        obtain ⟨g, hg, b⟩ := a
        exact ⟨g, by simp [hg], b⟩
      · rw [if_neg a]
        by_cases b : v ∈ vars
        · rw [if_pos b, if_pos ⟨f, by simp, vars, hf, b⟩]
        · rw [if_neg b, if_neg]
          rintro ⟨g, hg, vars', c1, c2⟩
          rcases List.mem_cons.mp hg with hg | hg
          · subst hg
            rw [hf] at c1
            injection c1 with c1
            subst c1
            exact b c2
          · exact a ⟨g, hg, vars', c1, c2⟩
    · intro f'
      rw [f2, f1, List.count_cons, Nat.add_assoc]
      congr 1
      rw [Nat.add_comm]
      congr 1
      by_cases e : f' = f
      · simp [e]
      · rw [if_neg e, if_neg (by simp only [beq_iff_eq]; exact fun h => e h.symm)]

theorem addModels_spec : ∀ (M : Nat) (d : Decomposition), Reachable n scopes d →
    Reachable n scopes (addModels d M) ∧ (addModels d M).numModels = d.numModels + M ∧ (addModels d M).varLists = d.varLists ∧ (addModels d M).facLists = d.facLists := by
  intro M
  induction M with
  | zero => intro d h; exact ⟨h, rfl, rfl, rfl⟩
  | succ M ih =>
    intro d h
    obtain ⟨h1, _, h3, h4, h5⟩ := addModel_step h
    obtain ⟨a1, a2, a3, a4⟩ := ih _ h1
    exact ⟨a1, by rw [addModels, a2, h3]; omega, by rw [addModels, a3, h4], by rw [addModels, a4, h5]⟩

/-- A submodel without copies has no variables. -/
theorem numSubVars_zero {d : Decomposition} (h : Reachable n scopes d) {m : Nat} (hm : m < d.numModels) (h0 : ∀ v, varCopies d.varLists m v = 0) :
    d.numSubVars[m]? = some 0 := by
  obtain ⟨hn, w⟩ := h.inv
  obtain ⟨c, hc⟩ : ∃ c, d.numSubVars[m]? = some c := ⟨_, List.getElem?_eq_getElem (by rw [w.subVarsLen]; exact hm)⟩
  cases c with
  | zero => exact hc
  | succ c =>
    obtain ⟨v, hv⟩ := (w.numbered.range m 0).mpr ⟨c + 1, hc, by omega⟩
    have : 0 < varCopies d.varLists m v := varCopies_pos.mpr ⟨0, hv⟩
    rw [h0] at this
    omega

theorem manualFold_spec (hsc : ∀ vars ∈ scopes, ∀ v ∈ vars, v < n) : ∀ (todo : List (List Nat)) (i : Nat) (d : Decomposition),
    (∀ fs ∈ todo, ∀ f ∈ fs, f < scopes.length) → Reachable n scopes d → i + todo.length ≤ d.numModels →
    (∀ m v, i ≤ m → varCopies d.varLists m v = 0) → (∀ m f, i ≤ m → facCopies d.facLists m f = 0) →
    ∃ d', (todo.zipIdx i).foldlM (manualModel n scopes) d = some d' ∧ Reachable n scopes d' ∧ d'.numModels = d.numModels ∧
      (∀ m v, m < i → varCopies d'.varLists m v = varCopies d.varLists m v) ∧ (∀ m f, m < i → facCopies d'.facLists m f = facCopies d.facLists m f) ∧
      (∀ (j : Nat) (fs : List Nat), todo[j]? = some fs →
        (∀ v, varCopies d'.varLists (i + j) v = if (∃ f ∈ fs, ∃ vars, scopes[f]? = some vars ∧ v ∈ vars) then 1 else 0) ∧
        ∀ f, facCopies d'.facLists (i + j) f = fs.count f) := by
  intro todo
  induction todo with
  | nil =>
    intro i d _ h _ _ _
    exact ⟨d, rfl, h, rfl, fun _ _ _ => rfl, fun _ _ _ => rfl, by simp⟩
  | cons fs todo ih =>
    intro i d hlt h hle hv0 hf0
    have hi : i < d.numModels := by simp only [List.length_cons] at hle; omega
    have hv0i : ∀ v, varCopies d.varLists i v = 0 := fun v => hv0 i v (Nat.le_refl i)
    obtain ⟨d1, ids1, e1, r1, o1, v1, f1⟩ := placeFold_spec (m := i) (Nat.le_refl n) hsc fs d (List.replicate n n) (hlt fs (by simp)) h hi
      (mapped_fresh hv0i (numSubVars_zero h hi hv0i))
    obtain ⟨d2, e2, r2, n2, v2, f2, g2⟩ := ih (i + 1) d1 (fun g hg => hlt g (by simp [hg])) r1
      (by rw [o1.models]; simp only [List.length_cons] at hle; omega)
      (fun m v hm => by rw [o1.vars m v (by omega)]; exact hv0 m v (by omega))
      (fun m f hm => by rw [o1.facs m f (by omega)]; exact hf0 m f (by omega))
    refine ⟨d2, ?_, r2, n2.trans o1.models, ?_, ?_, ?_⟩
    · rw [List.zipIdx_cons, List.foldlM_cons]
      have : manualModel n scopes d (fs, i) = some d1 := by simp only [manualModel, e1, Option.map_some]
      rw [this]
      exact e2
    · intro m v hm
      rw [v2 m v (by omega), o1.vars m v (by omega)]
    · intro m f hm
      rw [f2 m f (by omega), o1.facs m f (by omega)]
    · intro j gs hj
      cases j with
      | zero =>
        simp only [List.getElem?_cons_zero, Option.some.injEq] at hj
        subst hj
        constructor
        · intro v
          rw [Nat.add_zero, v2 i v (by omega), v1, hv0i]
        · intro f
          rw [Nat.add_zero, f2 i f (by omega), f1, hf0 i f (Nat.le_refl i), Nat.zero_add]
      | succ j =>
        simp only [List.getElem?_cons_succ] at hj
        have := g2 j gs hj
        rw [show i + 1 + j = i + (j + 1) by omega] at this
        exact this

end Decomposer
end OpenGM
