import Verif.Lemmas.DecomposerTrees
import Verif.Lemmas.DecomposerFans
import Verif.Props.FactorGraph
/-
C62. Automatic decompositions of a model.

Every decomposer returns a decomposition that the public interface of the decomposition class could have built (so C50 holds of it), has the submodels that
its description promises, and covers the model: manual decompositions hold the requested factors with their variables, the tree decomposition is one
acyclic submodel with every factor, the spanning trees are acyclic submodels on all variables that no missing factor extends, k-fans hold the factors at
their inner variables, open blocks the factors inside the block, closed blocks the factors that meet the block.
-/
namespace OpenGM
namespace Decomposer
open Spec Decomposition

/-- `isValid` says whether every variable and every factor has a copy in some submodel. -/
theorem valid_iff {n : Nat} {scopes : List (List Nat)} (hsc : ∀ vars ∈ scopes, ∀ v ∈ vars, v < n) {d : Decomposition} (h : Reachable n scopes d) :
    ∃ b, d.isValid n scopes = some b ∧ (b = true ↔ (∀ v, v < n → ∃ m, m < d.numModels ∧ 0 < varCopies d.varLists m v) ∧
      ∀ f, f < scopes.length → ∃ m, m < d.numModels ∧ 0 < facCopies d.facLists m f) := by
  obtain ⟨b, e, hb⟩ := C50_isValid hsc h
  obtain ⟨hvl, hfl, _⟩ := C50_numbered h
  refine ⟨b, e, hb.trans ?_⟩
  have lt_of_var : ∀ m v, 0 < varCopies d.varLists m v → m < d.numModels := by
    intro m v hp
    rcases Nat.lt_or_ge m d.numModels with h1 | h1
    · exact h1
    · rw [varCopies_new h h1] at hp
      omega
  have lt_of_fac : ∀ m f, 0 < facCopies d.facLists m f → m < d.numModels := by
    intro m v hp
    rcases Nat.lt_or_ge m d.numModels with h1 | h1
    · exact h1
    · rw [facCopies_new h h1] at hp
      omega
  have hvar : ∀ v, v < n → (d.varLists[v]? ≠ some [] ↔ ∃ m, m < d.numModels ∧ 0 < varCopies d.varLists m v) := by
    intro v hv
    obtain ⟨l, hl⟩ : ∃ l, d.varLists[v]? = some l := ⟨_, List.getElem?_eq_getElem (by rw [hvl]; exact hv)⟩
    constructor
    · intro hne
      cases l with
      | nil => exact absurd hl hne
      | cons s l =>
        have hp : 0 < varCopies d.varLists s.model v := by
          unfold varCopies
          rw [hl]
          simp
        exact ⟨s.model, lt_of_var _ _ hp, hp⟩
    · rintro ⟨m, _, hp⟩ e
      unfold varCopies at hp
      rw [e] at hp
      simp at hp
  have hfac : ∀ f, f < scopes.length → (d.facLists[f]? ≠ some [] ↔ ∃ m, m < d.numModels ∧ 0 < facCopies d.facLists m f) := by
    intro f hf
    obtain ⟨l, hl⟩ : ∃ l, d.facLists[f]? = some l := ⟨_, List.getElem?_eq_getElem (by rw [hfl]; exact hf)⟩
    constructor
    · intro hne
      cases l with
      | nil => exact absurd hl hne
      | cons s l =>
        have hp : 0 < facCopies d.facLists s.model f := by
          unfold facCopies
          rw [hl]
          simp
        exact ⟨s.model, lt_of_fac _ _ hp, hp⟩
    · rintro ⟨m, _, hp⟩
      exact (facCopies_pos hp).2
  constructor
  · rintro ⟨h1, h2⟩
    exact ⟨fun v hv => (hvar v hv).mp (h1 v hv), fun f hf => (hfac f hf).mp (h2 f hf)⟩
  · rintro ⟨h1, h2⟩
    exact ⟨fun v hv => (hvar v hv).mpr (h1 v hv), fun f hf => (hfac f hf).mpr (h2 f hf)⟩

/-- After `reorder` the variables of the sub-factors are increasing if those of the factors are. -/
theorem sorted_of_reorder {n : Nat} {scopes : List (List Nat)} {d d' : Decomposition} (h : Reachable n scopes d) (he : d.reorder = some d')
    (hs : ∀ vars ∈ scopes, vars.Pairwise (· < ·)) : ∀ s ∈ d'.facLists.flatten, s.indices.Pairwise (· < ·) := by
  intro s hm
  obtain ⟨l, hl, hsl⟩ := List.mem_flatten.mp hm
  obtain ⟨f, hf⟩ := List.getElem?_of_mem hl
  obtain ⟨_, _, _, _, _, hc, _⟩ := C50_numbered (h.reorder he)
  obtain ⟨_, ⟨vars, hv, _⟩, _⟩ := hc f l s hf hsl
  exact C50_reorder_sorted h he hv (hs vars (List.mem_of_getElem? hv)) hf hsl

open Classical in
/-- **decomposeManual**: submodel `m` holds exactly the factors of the `m`-th list, each as often as it is listed, and one copy of each of their variables. -/
theorem C62_manual {n : Nat} {scopes : List (List Nat)} (hsc : ∀ vars ∈ scopes, ∀ v ∈ vars, v < n) {subs : List (List Nat)} (hsub : ∀ fs ∈ subs, ∀ f ∈ fs, f < scopes.length) :
    ∃ d, manual n scopes subs = some d ∧ Reachable n scopes d ∧ d.numModels = subs.length ∧
      (∀ (m : Nat) (fs : List Nat), subs[m]? = some fs →
        (∀ v, varCopies d.varLists m v = if ∃ f ∈ fs, ∃ vars, scopes[f]? = some vars ∧ v ∈ vars then 1 else 0) ∧ ∀ f, facCopies d.facLists m f = fs.count f) ∧
      ((∀ vars ∈ scopes, vars.Pairwise (· < ·)) → ∀ s ∈ d.facLists.flatten, s.indices.Pairwise (· < ·)) := by
  have r0 := Reachable.make (n := n) (scopes := scopes) 0
  obtain ⟨r1, n1, v1, f1⟩ := addModels_spec subs.length _ r0
  have n0 : (Decomposition.make n scopes.length 0).numModels = 0 := rfl
  obtain ⟨d2, e2, r2, n2, _, _, g2⟩ := manualFold_spec hsc subs 0 _ hsub r1 (by rw [n1]; omega) (fun m v _ => by rw [v1]; exact varCopies_new r0 (Nat.zero_le _) v)
    (fun m f _ => by rw [f1]; exact facCopies_new r0 (Nat.zero_le _) f)
  obtain ⟨_, _, _, _, _, d3, e3⟩ := C50_operations r2
  refine ⟨d3, by simp only [manual, e2, e3], r2.reorder e3, ?_, ?_, sorted_of_reorder r2 e3⟩
  · rw [(C50_reorder r2 e3).2.2.2.2.2.1, n2, n1, n0, Nat.zero_add]
  · intro m fs hm
    obtain ⟨a, b⟩ := g2 m fs hm
    rw [Nat.zero_add] at a b
    exact ⟨fun v => by rw [varCopies_reorder r2 e3]; exact a v, fun f => by rw [facCopies_reorder r2 e3]; exact b f⟩

/-- A manual decomposition is valid iff the lists contain every factor and every variable belongs to a factor. -/
theorem C62_manual_valid {n : Nat} {scopes : List (List Nat)} (hsc : ∀ vars ∈ scopes, ∀ v ∈ vars, v < n) {subs : List (List Nat)} (hsub : ∀ fs ∈ subs, ∀ f ∈ fs, f < scopes.length) :
    ∃ d b, manual n scopes subs = some d ∧ d.isValid n scopes = some b ∧
      (b = true ↔ (∀ f, f < scopes.length → ∃ fs ∈ subs, f ∈ fs) ∧ ∀ v, v < n → ∃ vars ∈ scopes, v ∈ vars) := by
  obtain ⟨d, e, r, hn, hc, _⟩ := C62_manual hsc hsub
  obtain ⟨b, eb, hb⟩ := valid_iff hsc r
  refine ⟨d, b, e, eb, hb.trans ?_⟩
  have hget : ∀ m, m < d.numModels → ∃ fs, subs[m]? = some fs := fun m hm => ⟨_, List.getElem?_eq_getElem (by rw [← hn]; exact hm)⟩
  have hfac : ∀ f, (∃ m, m < d.numModels ∧ 0 < facCopies d.facLists m f) ↔ ∃ fs ∈ subs, f ∈ fs := by
    intro f
    constructor
    · rintro ⟨m, hm, hp⟩
      obtain ⟨fs, hfs⟩ := hget m hm
      rw [(hc m fs hfs).2] at hp
      exact ⟨fs, List.mem_of_getElem? hfs, List.count_pos_iff.mp hp⟩
    · rintro ⟨fs, hfs, hf⟩
      obtain ⟨m, hm⟩ := List.getElem?_of_mem hfs
      exact ⟨m, by rw [hn]; exact (List.getElem?_eq_some_iff.mp hm).1, by rw [(hc m fs hm).2]; exact List.count_pos_iff.mpr hf⟩
  have hvar : ∀ v, (∃ m, m < d.numModels ∧ 0 < varCopies d.varLists m v) ↔ ∃ fs ∈ subs, ∃ f ∈ fs, ∃ vars, scopes[f]? = some vars ∧ v ∈ vars := by
    intro v
    constructor
    · rintro ⟨m, hm, hp⟩
      obtain ⟨fs, hfs⟩ := hget m hm
      rw [(hc m fs hfs).1] at hp
      split at hp
      · rename_i hx
        exact ⟨fs, List.mem_of_getElem? hfs, hx⟩
      · omega
    · rintro ⟨fs, hfs, hx⟩
      obtain ⟨m, hm⟩ := List.getElem?_of_mem hfs
      exact ⟨m, by rw [hn]; exact (List.getElem?_eq_some_iff.mp hm).1, by rw [(hc m fs hm).1, if_pos hx]; omega⟩
  simp only [hfac, hvar]
  constructor
  · rintro ⟨h1, h2⟩
    refine ⟨h2, ?_⟩
    intro v hv
    obtain ⟨fs, _, f, _, vars, h3, h4⟩ := h1 v hv
    exact ⟨vars, List.mem_of_getElem? h3, h4⟩
  · rintro ⟨h1, h2⟩
    refine ⟨?_, h1⟩
    intro v hv
    obtain ⟨vars, h3, h4⟩ := h2 v hv
    obtain ⟨f, hf⟩ := List.getElem?_of_mem h3
    obtain ⟨fs, h5, h6⟩ := h1 f (List.getElem?_eq_some_iff.mp hf).1
    exact ⟨fs, h5, f, h6, vars, hf, h4⟩

/-- The state of decomposeIntoTree before the loop over the factors. -/
theorem tree_start (n : Nat) (scopes : List (List Nat)) : ∃ d, addAll 0 (List.range n) (Decomposition.make n scopes.length 0).addSubModel.2 = some d ∧ Reachable n scopes d ∧ d.numModels = 1 ∧
    Joined n 0 d id ∧ d.numSubFactors[0]? = some 0 ∧ (∀ f, facCopies d.facLists 0 f = 0) ∧ (∀ v, varCopies d.varLists 0 v = if v < n then 1 else 0) ∧
    d.facLists = List.replicate scopes.length [] := by
  have r0 := Reachable.make (n := n) (scopes := scopes) 0
  have n0 : (Decomposition.make n scopes.length 0).numModels = 0 := rfl
  obtain ⟨r1, hm1, _, f1, v1⟩ := newModel (S := 0) r0
  rw [n0] at hm1 f1 v1
  obtain ⟨d1, e1, r2, n2, fl2, sf2, c2, vc2, co2⟩ := addAll_spec (m := 0) n 0 _ r1 hm1 (numSubVars_zero r1 hm1 v1) (by omega)
  rw [← List.range_eq_range'] at e1
  refine ⟨d1, e1, r2, n2, joined_start r2 (fun v hv => (co2 _ _ _).mpr (Or.inr ⟨rfl, rfl, by omega, by omega⟩)) (fun f => by rw [fl2]; exact f1 f), ?_, ?_, ?_, fl2⟩
  · rw [sf2]
    rfl
  · intro f
    rw [fl2]
    exact f1 f
  · intro v
    rw [vc2, v1]
    simp

/-- **decomposeIntoTree**: one submodel that has no cycle, every factor exactly once and every variable at least once; the decomposition is valid. -/
theorem C62_tree {n : Nat} {scopes : List (List Nat)} (hsc : ∀ vars ∈ scopes, ∀ v ∈ vars, v < n) :
    ∃ d, tree n scopes = some d ∧ Reachable n scopes d ∧ d.numModels = 1 ∧ (submodelGraph d.facLists 0).IsAcyclic ∧
      (∀ v, v < n → 1 ≤ varCopies d.varLists 0 v) ∧ (∀ f, f < scopes.length → facCopies d.facLists 0 f = 1) ∧ d.isValid n scopes = some true ∧
      ((∀ vars ∈ scopes, vars.Pairwise (· < ·)) → ∀ s ∈ d.facLists.flatten, s.indices.Pairwise (· < ·)) := by
  obtain ⟨d1, e1, r1, n1, J1, _, f1, v1, _⟩ := tree_start n scopes
  obtain ⟨d2, P2, rep2, e2, r2, n2, J2, v2, f2⟩ := treeFold_spec hsc scopes 0 d1 (Partition.ofSize n) id (by simp) r1 n1 J1 (Partition.ofSize_inv n) rfl
  obtain ⟨_, _, _, _, _, d3, e3⟩ := C50_operations r2
  have r3 := r2.reorder e3
  have n3 : d3.numModels = 1 := by rw [(C50_reorder r2 e3).2.2.2.2.2.1, n2]
  have hv : ∀ v, v < n → 1 ≤ varCopies d3.varLists 0 v := by
    intro v hv
    rw [varCopies_reorder r2 e3]
    have := v2 v
    rw [v1, if_pos hv] at this
    exact this
  have hf : ∀ f, f < scopes.length → facCopies d3.facLists 0 f = 1 := by
    intro f hf
    rw [facCopies_reorder r2 e3, f2, f1, if_pos ⟨Nat.zero_le _, hf⟩]
  refine ⟨d3, by simp only [tree, e1, e2, e3], r3, n3, reorder_acyclic r2 e3 (by omega) J2.acyclic, hv, hf, ?_, sorted_of_reorder r2 e3⟩
  obtain ⟨b, eb, hb⟩ := valid_iff hsc r3
  rw [eb, hb.mpr ⟨fun v hx => ⟨0, by omega, hv v hx⟩, fun f hx => ⟨0, by omega, by rw [hf f hx]; omega⟩⟩]

/-- If the model itself has no cycle, no variable is duplicated. -/
theorem C62_tree_acyclic {n : Nat} {scopes : List (List Nat)} (hsc : ∀ vars ∈ scopes, ∀ v ∈ vars, v < n) (hnd : ∀ vars ∈ scopes, vars.Nodup)
    (hac : (bipartite scopes).IsAcyclic) :
    ∃ d, tree n scopes = some d ∧ ∀ v, varCopies d.varLists 0 v = if v < n then 1 else 0 := by
  obtain ⟨d1, e1, r1, n1, J1, s1, f1, v1, fl1⟩ := tree_start n scopes
  obtain ⟨d2, P2, rep2, e2, r2, n2, J2, _, _⟩ := treeFold_spec hsc scopes 0 d1 (Partition.ofSize n) id (by simp) r1 n1 J1 (Partition.ofSize_inv n) rfl
  obtain ⟨d2', P2', e2', v2'⟩ := treeFold_simple hsc hnd hac scopes 0 d1 (Partition.ofSize n) id (by simp) r1 n1 J1 (Partition.ofSize_inv n) rfl s1 (by
    rintro k j ⟨s, h1, _⟩
    rw [fl1] at h1
    obtain ⟨l, h2, h3⟩ := List.mem_flatten.mp h1
    rw [List.eq_of_mem_replicate h2] at h3
    simp at h3)
  rw [e2] at e2'
  simp only [Option.some.injEq, Prod.mk.injEq] at e2'
  obtain ⟨rfl, _⟩ := e2'
  obtain ⟨_, _, _, _, _, d3, e3⟩ := C50_operations r2
  refine ⟨d3, by simp only [tree, e1, e2, e3], ?_⟩
  intro v
  rw [varCopies_reorder r2 e3, v2', v1]

/-- **decomposeIntoSpanningTrees**: the loop ends; every submodel has no cycle, has every variable exactly once (under its own number) and every factor at
most once, and is maximal: a factor that is not in it has two variables that the submodel connects already. Every factor is in some submodel, there are at
most as many submodels as factors, and the decomposition of a model with a factor is valid. -/
theorem C62_spanningTrees {n : Nat} {scopes : List (List Nat)} (hsc : ∀ vars ∈ scopes, ∀ v ∈ vars, v < n) (hnd : ∀ vars ∈ scopes, vars.Nodup) :
    ∃ d, spanningTrees n scopes = some d ∧ Reachable n scopes d ∧ d.numModels ≤ scopes.length ∧
      (∀ m, m < d.numModels →
        (∀ v, varCopies d.varLists m v = if v < n then 1 else 0) ∧ (∀ v, v < n → CopyOf d.varLists m v v) ∧ (∀ f, facCopies d.facLists m f ≤ 1) ∧
        (submodelGraph d.facLists m).IsAcyclic ∧
        ∀ (f : Nat) (vars : List Nat), scopes[f]? = some vars → facCopies d.facLists m f = 0 →
          ∃ a ∈ vars, ∃ b ∈ vars, a ≠ b ∧ (submodelGraph d.facLists m).Reachable (.inl a) (.inl b)) ∧
      (∀ f, f < scopes.length → ∃ m, m < d.numModels ∧ facCopies d.facLists m f = 1) ∧ (scopes ≠ [] → d.isValid n scopes = some true) := by
  have r0 := Reachable.make (n := n) (scopes := scopes) 0
  have n0 : (Decomposition.make n scopes.length 0).numModels = 0 := rfl
  obtain ⟨d, e, r, T, C, _, hle, hpos⟩ := spanningLoop_spec hsc hnd scopes.length (List.range scopes.length) [] _ r0 (by simp) (by simp) (fun m hm => by omega) (by simp)
  rw [n0] at hle hpos
  simp only [List.length_range, Nat.zero_add] at hle
  refine ⟨d, e, r, hle, fun m hm => ⟨(T m hm).vars, (T m hm).same, (T m hm).facs, (T m hm).acyclic, (T m hm).maximal⟩, ?_, ?_⟩
  · intro f hf
    obtain ⟨m, hm, h1⟩ := C f hf
    have := (T m hm).facs f
    exact ⟨m, hm, by omega⟩
  · intro hne
    have hp : 0 < d.numModels := hpos (by
      intro h
      have := congrArg List.length h
      simp only [List.length_range, List.length_nil] at this
      exact hne (List.length_eq_zero_iff.mp this))
    obtain ⟨b, eb, hb⟩ := valid_iff hsc r
    rw [eb, hb.mpr ⟨fun v hx => ⟨0, hp, by rw [(T 0 hp).vars, if_pos hx]; omega⟩, C⟩]

/-- A factor belongs to the fan `m` with the given inner variables: a constant belongs to the first fan, a unary factor to the fans that contain its variable,
a binary factor to the fans with one of its variables inside. -/
def InFan (g : FG) (inner : List Nat) (m : Nat) (vars : List Nat) : Prop :=
  (vars = [] ∧ m = 0) ∨ (∃ a, vars = [a] ∧ (a ∈ inner ∨ ∃ s ∈ g.scopes, a ∈ s ∧ ∃ w ∈ s, w ∈ inner)) ∨ ∃ a b, vars = [a, b] ∧ (a ∈ inner ∨ b ∈ inner)

theorem inFan_iff (g : FG) (inner : List Nat) (m : Nat) (vars : List Nat) : FanFactor m inner (Included g inner) vars ↔ InFan g inner m vars := by
  unfold InFan
  match vars with
  | [] => simp [FanFactor]
  | [a] => simp [FanFactor, Included]
  | [a, b] =>
    simp only [FanFactor, List.cons_ne_nil, false_and, List.cons.injEq, and_false, exists_const, false_or, and_true, reduceCtorEq]
    constructor
    · intro h
      exact ⟨a, b, ⟨rfl, rfl⟩, h⟩
    · rintro ⟨a', b', ⟨rfl, rfl⟩, h⟩
      exact h
  | a :: b :: c :: rest => simp [FanFactor]

open Classical in
/-- **decomposeIntoKFans**: if no factor has more than two variables, fan `m` consists of the inner variables of the `m`-th set and the variables that share
a factor with them, once each, and of the factors `InFan`, once each. -/
theorem C62_kFans {g : FG} (hg : g.Exact) (h2 : ∀ vars ∈ g.scopes, vars.length ≤ 2) {as : List (List Nat)} (has : ∀ inner ∈ as, ∀ v ∈ inner, v < g.numVars) :
    ∃ d, kFans g as = .ok () d ∧ Reachable g.numVars g.scopes d ∧ d.numModels = as.length ∧
      ∀ (m : Nat) (inner : List Nat), as[m]? = some inner →
        (∀ v, varCopies d.varLists m v = if v ∈ inner ∨ ∃ s ∈ g.scopes, v ∈ s ∧ ∃ w ∈ s, w ∈ inner then 1 else 0) ∧
        ∀ f, facCopies d.facLists m f = if ∃ vars, g.scopes[f]? = some vars ∧ InFan g inner m vars then 1 else 0 := by
  have n0 : (Decomposition.make g.numVars g.scopes.length 0).numModels = 0 := rfl
  obtain ⟨d, e, r, hn, _, _, hc⟩ := (fanModels_spec hg as _ (Reachable.make 0) has).1 h2
  rw [n0, Nat.zero_add] at hn
  refine ⟨d, e, r, hn, ?_⟩
  intro m inner hm
  obtain ⟨a, b⟩ := hc m inner hm
  rw [n0, Nat.zero_add] at a b
  refine ⟨fun v => ?_, ?_⟩
  · rw [a v]
    unfold Included
    congr 1
  intro f
  rw [b f]
  simp only [inFan_iff]

/-- With a factor of three or more variables and at least one set, the call throws. -/
theorem C62_kFans_throws {g : FG} (hg : g.Exact) (h2 : ∃ vars ∈ g.scopes, 2 < vars.length) {as : List (List Nat)} (has : ∀ inner ∈ as, ∀ v ∈ inner, v < g.numVars) (hne : as ≠ []) :
    ∃ d, kFans g as = .throw d := (fanModels_spec hg as _ (Reachable.make 0) has).2 h2 hne

/-- If some set contains the variable, for every variable, the fans are a valid decomposition (if there is a fan at all). -/
theorem C62_kFans_valid {g : FG} (hg : g.Exact) (h2 : ∀ vars ∈ g.scopes, vars.length ≤ 2) {as : List (List Nat)} (has : ∀ inner ∈ as, ∀ v ∈ inner, v < g.numVars)
    (hcov : ∀ v, v < g.numVars → ∃ inner ∈ as, v ∈ inner) (hne : as ≠ []) : ∃ d, kFans g as = .ok () d ∧ d.isValid g.numVars g.scopes = some true := by
  obtain ⟨d, e, r, hn, hc⟩ := C62_kFans hg h2 has
  refine ⟨d, e, ?_⟩
  obtain ⟨b, eb, hb⟩ := valid_iff hg.range r
  rw [eb, hb.mpr]
  have hin : ∀ v, v < g.numVars → ∃ (m : Nat) (inner : List Nat), m < d.numModels ∧ as[m]? = some inner ∧ v ∈ inner := by
    intro v hv
    obtain ⟨inner, h1, h3⟩ := hcov v hv
    obtain ⟨m, hm⟩ := List.getElem?_of_mem h1
    exact ⟨m, inner, by rw [hn]; exact (List.getElem?_eq_some_iff.mp hm).1, hm, h3⟩
  constructor
  · intro v hv
    obtain ⟨m, inner, h1, h3, h4⟩ := hin v hv
    exact ⟨m, h1, by rw [(hc m inner h3).1, if_pos (Or.inl h4)]; omega⟩
  · intro f hf
    obtain ⟨vars, hs⟩ : ∃ vars, g.scopes[f]? = some vars := ⟨_, List.getElem?_eq_getElem hf⟩
    have hl := h2 vars (List.mem_of_getElem? hs)
    have hr := hg.range vars (List.mem_of_getElem? hs)
    match vars, hs, hl, hr with
    | [], hs, _, _ =>
      have hlen : 0 < as.length := List.length_pos_iff.mpr hne
      exact ⟨0, by omega, by rw [(hc 0 _ (List.getElem?_eq_getElem hlen)).2, if_pos ⟨[], hs, Or.inl ⟨rfl, rfl⟩⟩]; omega⟩
    | [a], hs, _, hr =>
      obtain ⟨m, inner, h1, h3, h4⟩ := hin a (hr a (by simp))
      exact ⟨m, h1, by rw [(hc m inner h3).2, if_pos ⟨[a], hs, Or.inr (Or.inl ⟨a, rfl, Or.inl h4⟩)⟩]; omega⟩
    | [a, b], hs, _, hr =>
      obtain ⟨m, inner, h1, h3, h4⟩ := hin a (hr a (by simp))
      exact ⟨m, h1, by rw [(hc m inner h3).2, if_pos ⟨[a, b], hs, Or.inr (Or.inr ⟨a, b, rfl, Or.inl h4⟩)⟩]; omega⟩
    | _ :: _ :: _ :: _, _, hl, _ => simp at hl

/-- **decomposeIntoKFans(gm, k)** with k ≥ 1: as many fans as needed to make every variable an inner one (rounded up), and a valid decomposition, if the
model has a variable. -/
theorem C62_kFansOfSize {g : FG} (hg : g.Exact) (h2 : ∀ vars ∈ g.scopes, vars.length ≤ 2) {k : Nat} (hk : 0 < k) (hn : 0 < g.numVars) :
    ∃ d, kFansOfSize g k = .ok () d ∧ Reachable g.numVars g.scopes d ∧ g.numVars ≤ d.numModels * k ∧ d.numModels * k < g.numVars + k ∧
      d.isValid g.numVars g.scopes = some true := by
  obtain ⟨hl, hs⟩ := fanSets_spec (k := k) ((g.numVars + k - 1) / k) 0 hn
  have hdiv := Nat.div_add_mod (g.numVars + k - 1) k
  have hmod := Nat.mod_lt (g.numVars + k - 1) hk
  have hmul : k * ((g.numVars + k - 1) / k) = ((g.numVars + k - 1) / k) * k := Nat.mul_comm _ _
  have has : ∀ inner ∈ fanSets g.numVars k ((g.numVars + k - 1) / k) 0, ∀ v ∈ inner, v < g.numVars := by
    intro inner h
    obtain ⟨j, hj⟩ := List.getElem?_of_mem h
    exact (hs j inner hj).1
  have hq : ∀ v, v < g.numVars → v / k < (g.numVars + k - 1) / k := by
    intro v hv
    rw [Nat.div_lt_iff_lt_mul hk]
    omega
  have hcov : ∀ v, v < g.numVars → ∃ inner ∈ fanSets g.numVars k ((g.numVars + k - 1) / k) 0, v ∈ inner := by
    intro v hv
    have hj : v / k < (fanSets g.numVars k ((g.numVars + k - 1) / k) 0).length := by rw [hl]; exact hq v hv
    refine ⟨_, List.getElem_mem hj, ?_⟩
    rw [(hs (v / k) _ (List.getElem?_eq_getElem hj)).2]
    refine ⟨v % k, Nat.mod_lt _ hk, ?_⟩
    rw [Nat.zero_add, Nat.mul_comm, Nat.div_add_mod, Nat.mod_eq_of_lt hv]
  have hne : fanSets g.numVars k ((g.numVars + k - 1) / k) 0 ≠ [] := by
    intro h
    have := hq 0 hn
    rw [h] at hl
    rw [← hl] at this
    simp at this
  obtain ⟨d, e, hv⟩ := C62_kFans_valid hg h2 has hcov hne
  obtain ⟨d', e', r, hm, _⟩ := C62_kFans hg h2 has
  rw [e] at e'
  simp only [Outcome.ok.injEq, true_and] at e'
  subst e'
  rw [hl] at hm
  refine ⟨d, by rw [kFansOfSize, if_neg (by omega)]; exact e, r, ?_, ?_, hv⟩
  · rw [hm]
    omega
  · rw [hm]
    omega

open Classical in
/-- **decomposeIntoOpenBlocks**: submodel `m` has one copy of each variable of the `m`-th set and one of each factor that depends on these variables only. -/
theorem C62_openBlocks {n : Nat} {scopes : List (List Nat)} (hn : n ≤ maxSize) (hsc : ∀ vars ∈ scopes, ∀ v ∈ vars, v < n) {blocks : List (List Nat)}
    (hb : ∀ inner ∈ blocks, inner.Nodup ∧ ∀ v ∈ inner, v < n) :
    ∃ d, openBlocks n scopes blocks = some d ∧ Reachable n scopes d ∧ d.numModels = blocks.length ∧
      ∀ (m : Nat) (inner : List Nat), blocks[m]? = some inner →
        (∀ v, varCopies d.varLists m v = if v ∈ inner then 1 else 0) ∧
        ∀ f, facCopies d.facLists m f = if ∃ vars, scopes[f]? = some vars ∧ ∀ v ∈ vars, v ∈ inner then 1 else 0 := by
  have n0 : (Decomposition.make n scopes.length 0).numModels = 0 := rfl
  obtain ⟨d, e, r, hm, _, _, hc⟩ := rounds_spec (ok := fun inner : List Nat => inner.Nodup ∧ ∀ v ∈ inner, v < n)
    (PV := fun inner _ v => if v ∈ inner then 1 else 0) (PF := fun inner _ f => if ∃ vars, scopes[f]? = some vars ∧ ∀ v ∈ vars, v ∈ inner then 1 else 0)
    (fun d inner h hok => openBlock_spec hn hsc h hok) blocks _ (Reachable.make 0) hb
  refine ⟨d, e, r, by rw [hm, n0, Nat.zero_add], ?_⟩
  intro m inner hmi
  have := hc m inner hmi
  rw [n0, Nat.zero_add] at this
  exact this

open Classical in
/-- **decomposeIntoClosedBlocks**: submodel `m` has one copy of each factor that depends on a variable of the `m`-th set, one of each factor without variables,
and one copy of each variable that is in the set or shares a factor with it. -/
theorem C62_closedBlocks {n : Nat} {scopes : List (List Nat)} (hn : n ≤ maxSize) (hsc : ∀ vars ∈ scopes, ∀ v ∈ vars, v < n) {blocks : List (List Nat)}
    (hb : ∀ inner ∈ blocks, inner.Nodup ∧ ∀ v ∈ inner, v < n) :
    ∃ d, closedBlocks n scopes blocks = some d ∧ Reachable n scopes d ∧ d.numModels = blocks.length ∧
      (∀ (m : Nat) (inner : List Nat), blocks[m]? = some inner →
        (∀ v, varCopies d.varLists m v = if v ∈ inner ∨ ∃ vars ∈ scopes, v ∈ vars ∧ ∃ w ∈ vars, w ∈ inner then 1 else 0) ∧
        ∀ f, facCopies d.facLists m f = if ∃ vars, scopes[f]? = some vars ∧ (vars = [] ∨ ∃ w ∈ vars, w ∈ inner) then 1 else 0) ∧
      ((∀ vars ∈ scopes, vars.Pairwise (· < ·)) → ∀ s ∈ d.facLists.flatten, s.indices.Pairwise (· < ·)) := by
  have n0 : (Decomposition.make n scopes.length 0).numModels = 0 := rfl
  obtain ⟨d, e, r, hm, _, _, hc⟩ := rounds_spec (ok := fun inner : List Nat => inner.Nodup ∧ ∀ v ∈ inner, v < n)
    (PV := fun inner _ v => if v ∈ inner ∨ ∃ vars ∈ scopes, v ∈ vars ∧ ∃ w ∈ vars, w ∈ inner then 1 else 0)
    (PF := fun inner _ f => if ∃ vars, scopes[f]? = some vars ∧ (vars = [] ∨ ∃ w ∈ vars, w ∈ inner) then 1 else 0)
    (fun d inner h hok => closedBlock_spec hn hsc h hok) blocks _ (Reachable.make 0) hb
  obtain ⟨_, _, _, _, _, d3, e3⟩ := C50_operations r
  refine ⟨d3, by simp only [closedBlocks, e, e3], r.reorder e3, by rw [(C50_reorder r e3).2.2.2.2.2.1, hm, n0, Nat.zero_add], ?_, sorted_of_reorder r e3⟩
  intro m inner hmi
  obtain ⟨a, b⟩ := hc m inner hmi
  rw [n0, Nat.zero_add] at a b
  exact ⟨fun v => by rw [varCopies_reorder r e3]; exact a v, fun f => by rw [facCopies_reorder r e3]; exact b f⟩

/-- Closed blocks that contain every variable are a valid decomposition (if there is a block). -/
theorem C62_closedBlocks_valid {n : Nat} {scopes : List (List Nat)} (hn : n ≤ maxSize) (hsc : ∀ vars ∈ scopes, ∀ v ∈ vars, v < n) {blocks : List (List Nat)}
    (hb : ∀ inner ∈ blocks, inner.Nodup ∧ ∀ v ∈ inner, v < n) (hcov : ∀ v, v < n → ∃ inner ∈ blocks, v ∈ inner) (hne : blocks ≠ []) :
    ∃ d, closedBlocks n scopes blocks = some d ∧ d.isValid n scopes = some true := by
  obtain ⟨d, e, r, hm, hc, _⟩ := C62_closedBlocks hn hsc hb
  refine ⟨d, e, ?_⟩
  obtain ⟨b, eb, hb⟩ := valid_iff hsc r
  rw [eb, hb.mpr]
  have hin : ∀ v, v < n → ∃ (m : Nat) (inner : List Nat), m < d.numModels ∧ blocks[m]? = some inner ∧ v ∈ inner := by
    intro v hv
    obtain ⟨inner, h1, h3⟩ := hcov v hv
    obtain ⟨m, hm'⟩ := List.getElem?_of_mem h1
    exact ⟨m, inner, by rw [hm]; exact (List.getElem?_eq_some_iff.mp hm').1, hm', h3⟩
  constructor
  · intro v hv
    obtain ⟨m, inner, h1, h3, h4⟩ := hin v hv
    exact ⟨m, h1, by rw [(hc m inner h3).1, if_pos (Or.inl h4)]; omega⟩
  · intro f hf
    obtain ⟨vars, hs⟩ : ∃ vars, scopes[f]? = some vars := ⟨_, List.getElem?_eq_getElem hf⟩
    cases vars with
    | nil =>
      have hlen : 0 < blocks.length := List.length_pos_iff.mpr hne
      exact ⟨0, by omega, by rw [(hc 0 _ (List.getElem?_eq_getElem hlen)).2, if_pos ⟨[], hs, Or.inl rfl⟩]; omega⟩
    | cons a vars =>
      obtain ⟨m, inner, h1, h3, h4⟩ := hin a (hsc _ (List.mem_of_getElem? hs) a (by simp))
      exact ⟨m, h1, by rw [(hc m inner h3).2, if_pos ⟨_, hs, Or.inr ⟨a, by simp, h4⟩⟩]; omega⟩

/-! ### The hypotheses can be met: a cycle of three variables with a unary factor and a constant. -/

/-- The factors of the example. -/
def demoScopes : List (List Nat) := [[0], [0, 1], [1, 2], [0, 2], []]

example : (∀ vars ∈ demoScopes, ∀ v ∈ vars, v < 3) ∧ (∀ vars ∈ demoScopes, vars.Nodup) ∧ (∀ vars ∈ demoScopes, vars.Pairwise (· < ·)) ∧
    (∀ vars ∈ demoScopes, vars.length ≤ 2) := by decide

/-- The cycle needs two spanning trees, and one more variable when cut open. -/
theorem demo_results : ((spanningTrees 3 demoScopes).map (fun d => (d.numModels, d.isValid 3 demoScopes))) = some (2, some true) ∧
    ((tree 3 demoScopes).map (fun d => (d.numSubVars, d.isValid 3 demoScopes))) = some ([4], some true) ∧
    ((manual 3 demoScopes [[0, 1], [2, 3, 4]]).map (fun d => (d.numSubVars, d.isValid 3 demoScopes))) = some ([2, 3], some true) ∧
    ((openBlocks 3 demoScopes [[0, 1], [1, 2]]).map (fun d => (d.numSubVars, d.isValid 3 demoScopes))) = some ([2, 2], some false) ∧
    ((closedBlocks 3 demoScopes [[0], [1, 2]]).map (fun d => (d.numSubFactors, d.isValid 3 demoScopes))) = some ([4, 4], some true) := by decide

/-- The violated cases: a model with variables but without factors has no spanning tree, so the decomposition does not contain its variables; a model without
variables has no fan, so its constants are lost; open blocks that cover the variables need not cover the factors; fans of size zero are undefined. -/
theorem C62_violated :
    ((spanningTrees 1 []).map (fun d => (d.numModels, d.isValid 1 []))) = some (0, some false) ∧
    (∃ d, kFansOfSize ⟨0, [[]], []⟩ 1 = .ok () d ∧ d.numModels = 0 ∧ d.isValid 0 [[]] = some false) ∧
    ((openBlocks 2 [[0, 1]] [[0], [1]]).map (fun d => d.isValid 2 [[0, 1]])) = some (some false) ∧
    (∀ g, kFansOfSize g 0 = .ub) :=
  ⟨by decide, ⟨_, rfl, rfl, rfl⟩, by decide, fun _ => rfl⟩

end Decomposer
end OpenGM
