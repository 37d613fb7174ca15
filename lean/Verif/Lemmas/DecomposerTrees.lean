import Verif.Lemmas.DecomposerBlocks
import Verif.Lemmas.StarGraph
import Verif.Lemmas.Partition
import Verif.Spec.FactorGraph
/-
decomposeIntoTree and decomposeIntoSpanningTrees.
-/
namespace OpenGM
namespace Decomposer
open Spec Decomposition
variable {n : Nat} {scopes : List (List Nat)}

theorem mergeChain_spec : ∀ (vars : List Nat) (P : Partition) (rep : Nat → Nat), Partition.Inv P rep → (∀ v ∈ vars, v < P.numberOfElements) →
    ∃ P' rep', mergeChain vars P = some P' ∧ Partition.Inv P' rep' ∧ P'.numberOfElements = P.numberOfElements ∧
      ∀ x y, rep' x = rep' y ↔ rep x = rep y ∨ ((∃ a ∈ vars, rep x = rep a) ∧ ∃ b ∈ vars, rep y = rep b) := by
  intro vars
  induction vars with
  | nil => intro P rep h _; exact ⟨P, rep, rfl, h, rfl, by simp⟩
  | cons v vs ih =>
    intro P rep h hlt
    cases vs with
    | nil =>
      refine ⟨P, rep, rfl, h, rfl, ?_⟩
      intro x y
      simp only [List.mem_singleton, exists_eq_left]
      constructor
      · exact Or.inl
      · rintro (a | ⟨a, b⟩)
        · exact a
        · rw [a, b]
    | cons w vs =>
      obtain ⟨P1, rep1, e1, i1, n1, h1⟩ := Partition.merge_spec h (hlt v (by simp)) (hlt w (by simp))
      obtain ⟨P2, rep2, e2, i2, n2, h2⟩ := ih P1 rep1 i1 (fun x hx => by rw [n1]; exact hlt x (by simp only [List.mem_cons] at hx ⊢; tauto))
      refine ⟨P2, rep2, by simp only [mergeChain, e1, e2], i2, n2.trans n1, ?_⟩
      have key : ∀ x, (∃ a ∈ w :: vs, rep1 x = rep1 a) ↔ ∃ a ∈ v :: w :: vs, rep x = rep a := by
        intro x
        constructor
        · rintro ⟨a, ha, e⟩
          rcases (h1 x a).mp e with e | ⟨e, _⟩ | ⟨e, _⟩
          · exact ⟨a, by simp only [List.mem_cons] at ha ⊢; tauto, e⟩
          · exact ⟨v, by simp, e⟩
          · exact ⟨w, by simp, e⟩
        · rintro ⟨a, ha, e⟩
          rcases List.mem_cons.mp ha with ha | ha
          · subst ha
            exact ⟨w, by simp, (h1 x w).mpr (Or.inr (Or.inl ⟨e, rfl⟩))⟩
          · exact ⟨a, ha, (h1 x a).mpr (Or.inl e)⟩
      intro x y
      rw [h2, key, key, h1]
      constructor
      · rintro ((a | ⟨a, b⟩ | ⟨a, b⟩) | a)
        · exact Or.inl a
        · exact Or.inr ⟨⟨v, by simp, a⟩, w, by simp, b⟩
        · exact Or.inr ⟨⟨w, by simp, a⟩, v, by simp, b⟩
        · exact Or.inr a
      · rintro (a | a)
        · exact Or.inl (Or.inl a)
        · exact Or.inr a

/-- A copy of each variable of an interval, in order. -/
theorem addAll_spec {m : Nat} : ∀ (len c : Nat) (d : Decomposition), Reachable n scopes d → m < d.numModels → d.numSubVars[m]? = some c → c + len ≤ n →
    ∃ d', addAll m (List.range' c len) d = some d' ∧ Reachable n scopes d' ∧ d'.numModels = d.numModels ∧ d'.facLists = d.facLists ∧ d'.numSubFactors = d.numSubFactors ∧
      d'.numSubVars[m]? = some (c + len) ∧
      (∀ m' v, varCopies d'.varLists m' v = varCopies d.varLists m' v + if m' = m ∧ c ≤ v ∧ v < c + len then 1 else 0) ∧
      (∀ m' k v, CopyOf d'.varLists m' k v ↔ CopyOf d.varLists m' k v ∨ (m' = m ∧ k = v ∧ c ≤ v ∧ v < c + len)) := by
  intro len
  induction len with
  | zero =>
    intro c d h hm hc hle
    refine ⟨d, rfl, h, rfl, rfl, rfl, hc, ?_, ?_⟩
    · intro m' v
      rw [if_neg (by omega)]
      rfl
    · intro m' k v
      constructor
      · exact Or.inl
      · rintro (a | a)
        · exact a
        · omega
  | succ len ih =>
    intro c d h hm hc hle
    obtain ⟨k, d1, e1, r1, h1, h2, h3, h4, h4', _, h5, h6⟩ := addVar_step h hm (show c < n by omega)
    rw [hc] at h1
    injection h1 with h1
    subst h1
    have hml : m < d.numSubVars.length := (List.getElem?_eq_some_iff.mp hc).1
    obtain ⟨d2, e2, r2, n2, f2, g2, c2, v2, p2⟩ := ih (c + 1) d1 r1 (by rw [h3]; exact hm) (by rw [h2, List.getElem?_set_self hml]) (by omega)
    refine ⟨d2, ?_, r2, n2.trans h3, f2.trans h4, g2.trans h4', by rw [c2]; congr 1; omega, ?_, ?_⟩
    · unfold addAll at e2 ⊢
      rw [List.range'_succ, List.foldlM_cons, e1]
      exact e2
    · intro m' v
      rw [v2, h5, Nat.add_assoc]
      congr 1
      by_cases e : m' = m
      · by_cases e2 : v = c
        · rw [if_pos ⟨e, e2⟩, if_neg (by omega), if_pos ⟨e, by omega, by omega⟩]
        · rw [if_neg (by omega : ¬ (m' = m ∧ v = c))]
          by_cases e3 : c + 1 ≤ v ∧ v < c + 1 + len
          · rw [if_pos ⟨e, e3⟩, if_pos ⟨e, by omega, by omega⟩]
          · rw [if_neg (by omega), if_neg (by omega)]
      · rw [if_neg (fun h => e h.1), if_neg (fun h => e h.1), if_neg (fun h => e h.1)]
    · intro m' k v
      rw [p2, h6]
      constructor
      · rintro ((a | ⟨a, b, c⟩) | ⟨a, b, c, e⟩)
        · exact Or.inl a
        · exact Or.inr ⟨a, by omega, by omega, by omega⟩
        · exact Or.inr ⟨a, b, by omega, by omega⟩
      · rintro (a | ⟨a, b, c', e⟩)
        · exact Or.inl (Or.inl a)
        · by_cases ev : v = c
          · exact Or.inl (Or.inr ⟨a, by omega, ev⟩)
          · exact Or.inr ⟨a, b, by omega, by omega⟩

/-- The variables of a sub-factor are copies. -/
theorem index_copy {d : Decomposition} (h : Reachable n scopes d) {s : SubFactor} (hs : s ∈ d.facLists.flatten) {k : Nat} (hk : k ∈ s.indices) :
    ∃ v, CopyOf d.varLists s.model k v := by
  obtain ⟨_, w⟩ := h.inv
  obtain ⟨l, hl, hsl⟩ := List.mem_flatten.mp hs
  obtain ⟨f, hf⟩ := List.getElem?_of_mem hl
  obtain ⟨_, vars, _, hc⟩ := w.copies f l s hf hsl
  obtain ⟨i, hi, e⟩ := List.getElem_of_mem hk
  have := List.forall₂_iff_get.mp hc
  have h2 := this.2 i hi (this.1 ▸ hi)
  rw [List.get_eq_getElem, e] at h2
  exact ⟨_, h2⟩

theorem submodelGraph_addFac_other {L L' : List (List SubFactor)} {x : SubFactor} (h : ∀ s, s ∈ L'.flatten ↔ s ∈ L.flatten ∨ s = x) {m : Nat} (hm : m ≠ x.model) :
    submodelGraph L' m = submodelGraph L m := by
  have key : ∀ k j, (∃ s ∈ L'.flatten, s.model = m ∧ s.id = some j ∧ k ∈ s.indices) ↔ ∃ s ∈ L.flatten, s.model = m ∧ s.id = some j ∧ k ∈ s.indices := by
    intro k j
    constructor
    · rintro ⟨s, h1, h2, h3⟩
      rcases (h s).mp h1 with h1 | rfl
      · exact ⟨s, h1, h2, h3⟩
      · exact absurd h2.symm hm
    · rintro ⟨s, h1, h2⟩
      exact ⟨s, (h s).mpr (Or.inl h1), h2⟩
  ext a b
  rcases a with a | a <;> rcases b with b | b
  · exact Iff.rfl
  · exact key a b
  · exact key b a
  · exact Iff.rfl

theorem submodelGraph_addFac {L L' : List (List SubFactor)} {m id : Nat} {ks : List Nat} (h : ∀ s, s ∈ L'.flatten ↔ s ∈ L.flatten ∨ s = ⟨m, some id, ks⟩) :
    submodelGraph L' m = starAdd (submodelGraph L m) (.inr id) (ks.map .inl) := by
  have key : ∀ k j, (∃ s ∈ L'.flatten, s.model = m ∧ s.id = some j ∧ k ∈ s.indices) ↔
      (∃ s ∈ L.flatten, s.model = m ∧ s.id = some j ∧ k ∈ s.indices) ∨ (j = id ∧ k ∈ ks) := by
    intro k j
    constructor
    · rintro ⟨s, h1, h2, h3, h4⟩
      rcases (h s).mp h1 with h1 | rfl
      · exact Or.inl ⟨s, h1, h2, h3, h4⟩
      · simp only [Option.some.injEq] at h3
        exact Or.inr ⟨h3.symm, h4⟩
    · rintro (⟨s, h1, h2⟩ | ⟨rfl, h2⟩)
      · exact ⟨s, (h s).mpr (Or.inl h1), h2⟩
      · exact ⟨_, (h _).mpr (Or.inr rfl), rfl, rfl, h2⟩
  ext a b
  rcases a with a | a <;> rcases b with b | b
  · simp [starAdd, submodelGraph]
  · rw [show (submodelGraph L' m).Adj (Sum.inl a) (Sum.inr b) ↔ _ from key a b]
    simp only [starAdd, reduceCtorEq, false_and, false_or, List.mem_map, Sum.inl.injEq, exists_eq_right, Sum.inr.injEq, ne_eq, not_false_eq_true, and_true]
    exact Iff.rfl
  · rw [show (submodelGraph L' m).Adj (Sum.inr a) (Sum.inl b) ↔ _ from key b a]
    simp only [starAdd, reduceCtorEq, false_and, or_false, List.mem_map, Sum.inl.injEq, exists_eq_right, Sum.inr.injEq, ne_eq, not_false_eq_true, and_true]
    exact Iff.rfl
  · simp [starAdd, submodelGraph]

/-- The factor number `id` is not used yet. -/
theorem fresh_isolated {d : Decomposition} (h : Reachable n scopes d) {m id : Nat} (hid : d.numSubFactors[m]? = some id) :
    ∀ x, ¬ (submodelGraph d.facLists m).Adj (.inr id) x := by
  obtain ⟨_, w⟩ := h.inv
  rintro (k | k) hadj
  · obtain ⟨s, h1, h2, h3, _⟩ := hadj
    obtain ⟨k', c, h4, h5, h6⟩ := w.idLt s h1
    rw [h2, hid] at h5
    rw [h3] at h4
    injection h4 with h4
    injection h5 with h5
    omega
  · exact hadj

/-- A variable number that is not a copy is isolated. -/
theorem var_isolated {d : Decomposition} (h : Reachable n scopes d) {m k : Nat} (hk : ∀ v, ¬ CopyOf d.varLists m k v) :
    ∀ x, ¬ (submodelGraph d.facLists m).Adj (.inl k) x := by
  rintro (j | j) hadj
  · exact hadj
  · obtain ⟨s, h1, rfl, _, h3⟩ := hadj
    obtain ⟨v, hv⟩ := index_copy h h1 h3
    exact hk v hv

/-- The partition describes the components of submodel `m`. -/
structure Joined (n m : Nat) (d : Decomposition) (rep : Nat → Nat) : Prop where
  acyclic : (submodelGraph d.facLists m).IsAcyclic
  orig : ∀ v, v < n → CopyOf d.varLists m v v
  conn : ∀ k v k' v', CopyOf d.varLists m k v → CopyOf d.varLists m k' v' → (submodelGraph d.facLists m).Reachable (.inl k) (.inl k') → rep v = rep v'
  back : ∀ v v', v < n → v' < n → rep v = rep v' → (submodelGraph d.facLists m).Reachable (.inl v) (.inl v')

theorem joined_start {d : Decomposition} (h : Reachable n scopes d) {m : Nat} (ho : ∀ v, v < n → CopyOf d.varLists m v v) (h0 : ∀ f, facCopies d.facLists m f = 0) : Joined n m d id := by
  have hno : ∀ s ∈ d.facLists.flatten, s.model ≠ m := by
    intro s hs e
    obtain ⟨l, hl, hsl⟩ := List.mem_flatten.mp hs
    obtain ⟨f, hf⟩ := List.getElem?_of_mem hl
    have := h0 f
    unfold facCopies at this
    rw [hf, Option.getD_some, List.countP_eq_zero] at this
    exact this s hsl (by simp [e])
  have hbot : submodelGraph d.facLists m = ⊥ := by
    ext a b
    rw [SimpleGraph.bot_adj, iff_false]
    rcases a with a | a <;> rcases b with b | b
    · exact fun h => h
    · rintro ⟨s, h1, h2, _⟩
      exact hno s h1 h2
    · rintro ⟨s, h1, h2, _⟩
      exact hno s h1 h2
    · exact fun h => h
  refine ⟨?_, ho, ?_, ?_⟩
  · rw [hbot]
    exact SimpleGraph.isAcyclic_bot
  · intro k v k' v' h1 h2 hr
    rw [hbot, SimpleGraph.reachable_bot] at hr
    injection hr with hr
    subst hr
    exact h.inv.2.numbered.unique m k v v' h1 h2
  · rintro v v' _ _ rfl
    exact SimpleGraph.Reachable.refl _

theorem joined_addFac {d d' : Decomposition} {m id : Nat} {rep rep' : Nat → Nat} {ks vars : List Nat} (h : Reachable n scopes d) (hJ : Joined n m d rep)
    (hid : d.numSubFactors[m]? = some id) (hv : d'.varLists = d.varLists) (hf : ∀ s, s ∈ d'.facLists.flatten ↔ s ∈ d.facLists.flatten ∨ s = ⟨m, some id, ks⟩)
    (hc : CopiesOf d.varLists m ks vars) (hp : ks.Pairwise (fun a b => ¬ (submodelGraph d.facLists m).Reachable (.inl a) (.inl b)))
    (ho : ∀ v ∈ vars, ∃ v0 ∈ ks, v0 < n ∧ v0 ∈ vars ∧ rep v0 = rep v)
    (hr : ∀ x y, rep' x = rep' y ↔ rep x = rep y ∨ ((∃ a ∈ vars, rep x = rep a) ∧ ∃ b ∈ vars, rep y = rep b)) : Joined n m d' rep' := by
  have hg := submodelGraph_addFac hf
  have hcopy : ∀ k ∈ ks, ∃ v ∈ vars, CopyOf d.varLists m k v := by
    intro k hk
    obtain ⟨i, hi, e⟩ := List.getElem_of_mem hk
    have := List.forall₂_iff_get.mp hc
    have h2 := this.2 i hi (this.1 ▸ hi)
    rw [List.get_eq_getElem, e] at h2
    exact ⟨_, List.get_mem _ _, h2⟩
  refine ⟨?_, by rw [hv]; exact hJ.orig, ?_, ?_⟩
  · rw [hg]
    refine starAdd_acyclic hJ.acyclic (fresh_isolated h hid) _ (by simp) ?_
    rw [List.pairwise_map]
    exact hp
  · intro k v k' v' h1 h2 hreach
    rw [hv] at h1 h2
    rw [hg] at hreach
    have hin : ∀ k v, CopyOf d.varLists m k v → InStar (submodelGraph d.facLists m) (.inr id) (ks.map .inl) (.inl k) → ∃ a ∈ vars, rep v = rep a := by
      rintro k v h1 (h | ⟨a, ha, h⟩)
      · exact absurd (isolated_reachable (fresh_isolated ‹_› hid) h.symm) (by simp)
      · obtain ⟨k0, hk0, rfl⟩ := List.mem_map.mp ha
        obtain ⟨v0, hv0, hc0⟩ := hcopy k0 hk0
        exact ⟨v0, hv0, hJ.conn _ _ _ _ h1 hc0 h⟩
    rw [hr]
    rcases starAdd_reachable hreach with h3 | ⟨h3, h4⟩
    · exact Or.inl (hJ.conn _ _ _ _ h1 h2 h3)
    · exact Or.inr ⟨hin k v h1 h3, hin k' v' h2 h4⟩
  · intro v v' h1 h2 he
    rw [hg]
    rcases (hr v v').mp he with h3 | ⟨⟨a, ha, h3⟩, b, hb, h4⟩
    · exact (hJ.back v v' h1 h2 h3).mono (le_starAdd _ _ _)
    · obtain ⟨a0, a1, a2, _, a3⟩ := ho a ha
      obtain ⟨b0, b1, b2, _, b3⟩ := ho b hb
      exact starAdd_reachable_of (List.mem_map.mpr ⟨a0, a1, rfl⟩) (List.mem_map.mpr ⟨b0, b1, rfl⟩) (hJ.back v a0 h1 a2 (h3.trans a3.symm)) (hJ.back v' b0 h2 b2 (h4.trans b3.symm))

/-- Numbers below the counter are the copies. -/
theorem copy_lt {d : Decomposition} (h : Reachable n scopes d) {m c k : Nat} (hc : d.numSubVars[m]? = some c) : (∃ v, CopyOf d.varLists m k v) ↔ k < c := by
  rw [h.inv.2.numbered.range m k]
  constructor
  · rintro ⟨c', h1, h2⟩
    rw [hc] at h1
    injection h1 with h1
    omega
  · exact fun hk => ⟨c, hc, hk⟩

theorem treeVars_spec {rep : Nat → Nat} : ∀ (vars seen : List Nat) (d : Decomposition) (P : Partition) (c : Nat), Reachable n scopes d → 0 < d.numModels →
    Joined n 0 d rep → Partition.Inv P rep → P.numberOfElements = n → d.numSubVars[0]? = some c → (∀ v ∈ vars, v < n) →
    ∃ ks d' P', treeVars vars seen d P = some (ks, d', P') ∧ Reachable n scopes d' ∧ d'.numModels = d.numModels ∧ d'.facLists = d.facLists ∧
      d'.numSubFactors = d.numSubFactors ∧ Joined n 0 d' rep ∧ Partition.Inv P' rep ∧ P'.numberOfElements = n ∧ CopiesOf d'.varLists 0 ks vars ∧
      (∀ k v, CopyOf d.varLists 0 k v → CopyOf d'.varLists 0 k v) ∧
      (∀ v, varCopies d.varLists 0 v ≤ varCopies d'.varLists 0 v) ∧
      (∀ k ∈ ks, (k < n ∧ rep k ∉ seen) ∨ c ≤ k) ∧
      ks.Pairwise (fun a b => ¬ (submodelGraph d.facLists 0).Reachable (.inl a) (.inl b)) ∧
      (∀ v ∈ vars, rep v ∈ seen ∨ ∃ v0 ∈ ks, v0 < n ∧ v0 ∈ vars ∧ rep v0 = rep v) := by
  intro vars
  induction vars with
  | nil =>
    intro seen d P c h _ hJ hI hn hc _
    exact ⟨[], d, P, rfl, h, rfl, rfl, rfl, hJ, hI, hn, .nil, fun _ _ h => h, fun _ => Nat.le_refl _, by simp, .nil, by simp⟩
  | cons v vars ih =>
    intro seen d P c h hm hJ hI hn hc hlt
    have hv : v < n := hlt v (by simp)
    obtain ⟨P1, e1, i1, n1, _⟩ := Partition.find_spec hI (x := v) (by rw [hn]; exact hv)
    have hiso : ∀ k, c ≤ k → ∀ x, ¬ (submodelGraph d.facLists 0).Adj (.inl k) x := fun k hk =>
      var_isolated h (fun w hw => absurd ((copy_lt h hc).mp ⟨w, hw⟩) (by omega))
    have hnc : n ≤ c := by
      rcases Nat.lt_or_ge c n with hlt | hge
      · exact absurd ((copy_lt h hc).mp ⟨c, hJ.orig c hlt⟩) (by omega)
      · exact hge
    by_cases hs : rep v ∈ seen
    · obtain ⟨k, d1, e2, r1, h1, h2, h3, h4, h4', _, h5, h6⟩ := addVar_step h hm hv
      rw [hc] at h1
      injection h1 with h1
      subst h1
      have hml : 0 < d.numSubVars.length := (List.getElem?_eq_some_iff.mp hc).1
      have hJ1 : Joined n 0 d1 rep := by
        refine ⟨by rw [h4]; exact hJ.acyclic, fun w hw => (h6 _ _ _).mpr (Or.inl (hJ.orig w hw)), ?_, by rw [h4]; exact hJ.back⟩
        intro k w k' w' c1 c2 hr
        rw [h4] at hr
        rcases (h6 _ _ _).mp c1 with c1 | ⟨_, rfl, rfl⟩
        · rcases (h6 _ _ _).mp c2 with c2 | ⟨_, rfl, rfl⟩
          · exact hJ.conn _ _ _ _ c1 c2 hr
          · have := isolated_reachable (hiso _ (Nat.le_refl _)) hr.symm
            injection this with this
            subst this
            exact absurd ((copy_lt h hc).mp ⟨w, c1⟩) (by omega)
        · rcases (h6 _ _ _).mp c2 with c2 | ⟨_, rfl, rfl⟩
          · have := isolated_reachable (hiso _ (Nat.le_refl _)) hr
            injection this with this
            subst this
            exact absurd ((copy_lt h hc).mp ⟨w', c2⟩) (by omega)
          · rfl
      obtain ⟨ks, d2, P2, e3, r2, m2, f2, g2, J2, I2, n2, C2, cp2, vc2, k2, p2, s2⟩ := ih (rep v :: seen) d1 P1 (c + 1) r1 (by rw [h3]; exact hm) hJ1 i1 (n1.trans hn)
        (by rw [h2, List.getElem?_set_self hml]) (fun w hw => hlt w (by simp [hw]))
      rw [h4] at p2
      refine ⟨c :: ks, d2, P2, by simp only [treeVars, e1, if_pos hs, e2, e3], r2, m2.trans h3, f2.trans h4, g2.trans h4', J2, I2, n2,
        .cons (cp2 _ _ ((h6 _ _ _).mpr (Or.inr ⟨rfl, rfl, rfl⟩))) C2, fun k w hk => cp2 _ _ ((h6 _ _ _).mpr (Or.inl hk)), ?_, ?_, ?_, ?_⟩
      · intro w
        refine Nat.le_trans ?_ (vc2 w)
        rw [h5]
        omega
      · intro k hk
        rcases List.mem_cons.mp hk with hk | hk
        · exact Or.inr (by omega)
        · rcases k2 k hk with ⟨a, b⟩ | a
          · exact Or.inl ⟨a, fun hb => b (by simp [hb])⟩
          · exact Or.inr (by omega)
      · refine List.pairwise_cons.mpr ⟨?_, p2⟩
        intro k hk hr
        have := isolated_reachable (hiso _ (Nat.le_refl _)) hr
        injection this with this
        subst this
        rcases k2 k hk with ⟨a, b⟩ | a <;> omega
      · intro w hw
        rcases List.mem_cons.mp hw with hw | hw
        · subst hw
          exact Or.inl hs
        · rcases s2 w hw with a | ⟨v0, a, b, c', e⟩
          · rcases List.mem_cons.mp a with a | a
            · exact Or.inl (by rw [a]; exact hs)
            · exact Or.inl a
          · exact Or.inr ⟨v0, by simp [a], b, by simp [c'], e⟩
    · obtain ⟨ks, d2, P2, e3, r2, m2, f2, g2, J2, I2, n2, C2, cp2, vc2, k2, p2, s2⟩ := ih (rep v :: seen) d P1 c h hm hJ i1 (n1.trans hn) hc (fun w hw => hlt w (by simp [hw]))
      refine ⟨v :: ks, d2, P2, by simp only [treeVars, e1, if_neg hs, e3], r2, m2, f2, g2, J2, I2, n2,
        .cons (cp2 _ _ (hJ.orig v hv)) C2, cp2, vc2, ?_, ?_, ?_⟩
      · intro k hk
        rcases List.mem_cons.mp hk with hk | hk
        · subst hk
          exact Or.inl ⟨hv, hs⟩
        · rcases k2 k hk with ⟨a, b⟩ | a
          · exact Or.inl ⟨a, fun hb => b (by simp [hb])⟩
          · exact Or.inr a
      · refine List.pairwise_cons.mpr ⟨?_, p2⟩
        intro k hk hr
        rcases k2 k hk with ⟨a, b⟩ | a
        · exact b (by rw [← hJ.conn v v k k (hJ.orig v hv) (hJ.orig k a) hr]; simp)
        · have := isolated_reachable (hiso _ a) hr.symm
          injection this with this
          omega
      · intro w hw
        rcases List.mem_cons.mp hw with hw | hw
        · subst hw
          exact Or.inr ⟨w, by simp, hv, by simp, rfl⟩
        · rcases s2 w hw with a | ⟨v0, a, b, c', e⟩
          · rcases List.mem_cons.mp a with a | a
            · exact Or.inr ⟨v, by simp, hv, by simp, a.symm⟩
            · exact Or.inl a
          · exact Or.inr ⟨v0, by simp [a], b, by simp [c'], e⟩

theorem treeFold_spec (hsc : ∀ vars ∈ scopes, ∀ v ∈ vars, v < n) : ∀ (todo : List (List Nat)) (i : Nat) (d : Decomposition) (P : Partition) (rep : Nat → Nat),
    (∀ j : Nat, todo[j]? = scopes[i + j]?) → Reachable n scopes d → d.numModels = 1 → Joined n 0 d rep → Partition.Inv P rep → P.numberOfElements = n →
    ∃ d' P' rep', (todo.zipIdx i).foldlM treeFactor (d, P) = some (d', P') ∧ Reachable n scopes d' ∧ d'.numModels = 1 ∧ Joined n 0 d' rep' ∧
      (∀ v, varCopies d.varLists 0 v ≤ varCopies d'.varLists 0 v) ∧
      (∀ f, facCopies d'.facLists 0 f = facCopies d.facLists 0 f + if i ≤ f ∧ f < scopes.length then 1 else 0) := by
  intro todo
  induction todo with
  | nil =>
    intro i d P rep htodo h hm hJ _ _
    refine ⟨d, P, rep, rfl, h, hm, hJ, fun _ => Nat.le_refl _, ?_⟩
    intro f
    rw [if_neg]
    · rfl
    · rintro ⟨h1, h2⟩
      have := htodo (f - i)
      rw [show i + (f - i) = f by omega, List.getElem?_eq_getElem h2] at this
      simp at this
  | cons vars todo ih =>
    intro i d P rep htodo h hm hJ hI hn
    have hi : scopes[i]? = some vars := by
      have := htodo 0
      simp only [List.getElem?_cons_zero, Nat.add_zero] at this
      exact this.symm
    have htodo' : ∀ j : Nat, todo[j]? = scopes[(i + 1) + j]? := by
      intro j
      have := htodo (j + 1)
      rw [List.getElem?_cons_succ, show i + (j + 1) = i + 1 + j by omega] at this
      exact this
    have hlt := hsc vars (List.mem_of_getElem? hi)
    obtain ⟨c, hc⟩ : ∃ c, d.numSubVars[0]? = some c := ⟨_, List.getElem?_eq_getElem (by rw [h.inv.2.subVarsLen]; omega)⟩
    obtain ⟨ks, d1, P1, e1, r1, m1, f1, g1, J1, I1, n1, C1, _, vc1, _, p1, s1⟩ := treeVars_spec vars [] d P c h (by omega) hJ hI hn hc hlt
    obtain ⟨k, d2, e2, r2, k2, _, m2, v2, nv2, fc2, fl2⟩ := addFac_step r1 (by omega) hi C1
    obtain ⟨P3, rep3, e3, i3, n3, h3⟩ := mergeChain_spec vars P1 rep I1 (fun v hv => by rw [n1]; exact hlt v hv)
    have J2 : Joined n 0 d2 rep3 := joined_addFac r1 J1 k2 v2 fl2 C1 (by rw [f1]; exact p1)
      (fun v hv => (s1 v hv).resolve_left (by simp)) h3
    obtain ⟨d4, P4, rep4, e4, r4, m4, J4, vc4, fc4⟩ := ih (i + 1) d2 P3 rep3 htodo' r2 (by omega) J2 i3 (n3.trans n1)
    refine ⟨d4, P4, rep4, ?_, r4, m4, J4, ?_, ?_⟩
    · rw [List.zipIdx_cons, List.foldlM_cons]
      simp only [treeFactor, e1, e2, e3]
      exact e4
    · intro v
      refine Nat.le_trans (vc1 v) ?_
      rw [← v2]
      exact vc4 v
    · intro f
      rw [fc4, fc2, f1, Nat.add_assoc]
      congr 1
      have hlen : i < scopes.length := (List.getElem?_eq_some_iff.mp hi).1
      by_cases e : f = i
      · rw [if_pos ⟨rfl, e⟩, if_neg (by omega), if_pos ⟨by omega, by omega⟩]
      · rw [if_neg (fun h => e h.2), Nat.zero_add]
        congr 1
        rw [eq_iff_iff]
        omega

open Classical in
/-- Renumbering the variables does not close cycles. -/
theorem reorder_acyclic {d d' : Decomposition} (h : Reachable n scopes d) (he : d.reorder = some d') {m : Nat} (hm : m < d.numModels)
    (hac : (submodelGraph d.facLists m).IsAcyclic) : (submodelGraph d'.facLists m).IsAcyclic := by
  obtain ⟨⟨π, hπ, _, ef, _⟩, _⟩ := C50_reorder h he
  obtain ⟨c, hc⟩ : ∃ c, d.numSubVars[m]? = some c := ⟨_, List.getElem?_eq_getElem (by rw [h.inv.2.subVarsLen]; exact hm)⟩
  have hR := hπ m c hc
  let inv : Nat → Nat := fun k' => if hx : ∃ k, k < c ∧ π m k = k' then hx.choose else c + k'
  have inv_pi : ∀ k, k < c → inv (π m k) = k := by
    intro k hk
    have hx : ∃ k0, k0 < c ∧ π m k0 = π m k := ⟨k, hk, rfl⟩
    show (if hx : _ then _ else _) = k
    rw [dif_pos hx]
    exact hR.inj _ _ hx.choose_spec.1 hk hx.choose_spec.2
  have inv_inj : Function.Injective inv := by
    intro a b hab
    simp only [inv] at hab
    split at hab
    · rename_i ha
      split at hab
      · rename_i hb
        rw [← ha.choose_spec.2, ← hb.choose_spec.2, hab]
      · have := ha.choose_spec.1
        omega
    · split at hab
      · rename_i hb
        have := hb.choose_spec.1
        omega
      · omega
  have hmem : ∀ s, s ∈ d'.facLists.flatten → ∃ s0 ∈ d.facLists.flatten, s0.model = s.model ∧ s0.id = s.id ∧ s.indices = s0.indices.map (π s.model) := by
    intro s hs
    rw [ef] at hs
    simp only [List.mem_flatten, List.mem_map] at hs
    obtain ⟨l, ⟨l0, h1, rfl⟩, h2⟩ := hs
    obtain ⟨s0, h3, rfl⟩ := List.mem_map.mp h2
    exact ⟨s0, List.mem_flatten.mpr ⟨l0, h1, h3⟩, rfl, rfl, rfl⟩
  have key : ∀ k j, (∃ s ∈ d'.facLists.flatten, s.model = m ∧ s.id = some j ∧ k ∈ s.indices) →
      ∃ s ∈ d.facLists.flatten, s.model = m ∧ s.id = some j ∧ inv k ∈ s.indices := by
    rintro k j ⟨s, h1, h2, h3, h4⟩
    obtain ⟨s0, a1, a2, a3, a4⟩ := hmem s h1
    rw [a4, h2] at h4
    obtain ⟨k0, hk0, rfl⟩ := List.mem_map.mp h4
    obtain ⟨v, hv⟩ := index_copy h a1 hk0
    rw [a2, h2] at hv
    exact ⟨s0, a1, a2.trans h2, a3.trans h3, by rw [inv_pi k0 ((copy_lt h hc).mp ⟨v, hv⟩)]; exact hk0⟩
  let φ : submodelGraph d'.facLists m →g submodelGraph d.facLists m :=
    { toFun := Sum.map inv id
      map_rel' := by
        rintro (a | a) (b | b) hab
        · exact hab
        · exact key a b hab
        · exact key b a hab
        · exact hab }
  exact SimpleGraph.IsAcyclic.comap φ (Function.Injective.sumMap inv_inj Function.injective_id) hac

theorem insertable_spec {rep : Nat → Nat} : ∀ (vars seen : List Nat) (P : Partition), Partition.Inv P rep → (∀ v ∈ vars, v < P.numberOfElements) →
    ∃ b P', insertable vars seen P = some (b, P') ∧ Partition.Inv P' rep ∧ P'.numberOfElements = P.numberOfElements ∧
      (b = true → vars.Pairwise (fun a b => rep a ≠ rep b) ∧ ∀ v ∈ vars, rep v ∉ seen) ∧
      (b = false → (∃ v ∈ vars, rep v ∈ seen) ∨ ¬ vars.Pairwise (fun a b => rep a ≠ rep b)) := by
  intro vars
  induction vars with
  | nil => intro seen P h _; exact ⟨true, P, rfl, h, rfl, fun _ => ⟨.nil, by simp⟩, by simp⟩
  | cons v vars ih =>
    intro seen P h hlt
    obtain ⟨P1, e1, i1, n1, _⟩ := Partition.find_spec h (hlt v (by simp))
    by_cases hs : rep v ∈ seen
    · exact ⟨false, P1, by simp only [insertable, e1, if_pos hs], i1, n1, by simp, fun _ => Or.inl ⟨v, by simp, hs⟩⟩
    · obtain ⟨b, P2, e2, i2, n2, ht, hf⟩ := ih (rep v :: seen) P1 i1 (fun w hw => by rw [n1]; exact hlt w (by simp [hw]))
      refine ⟨b, P2, by simp only [insertable, e1, if_neg hs, e2], i2, n2.trans n1, ?_, ?_⟩
      · intro hb
        obtain ⟨h1, h2⟩ := ht hb
        refine ⟨List.pairwise_cons.mpr ⟨fun w hw e => h2 w hw (by simp [e]), h1⟩, ?_⟩
        intro w hw
        rcases List.mem_cons.mp hw with hw | hw
        · subst hw; exact hs
        · exact fun hx => h2 w hw (by simp [hx])
      · intro hb
        rcases hf hb with ⟨w, hw, hx⟩ | hx
        · rcases List.mem_cons.mp hx with hx | hx
          · right
            intro hp
            exact (List.pairwise_cons.mp hp).1 w hw hx.symm
          · exact Or.inl ⟨w, by simp [hw], hx⟩
        · right
          intro hp
          exact hx (List.pairwise_cons.mp hp).2

/-- Two positions with equal values under `rep`. -/
theorem not_pairwise_rep {rep : Nat → Nat} : ∀ {vars : List Nat}, vars.Nodup → ¬ vars.Pairwise (fun a b => rep a ≠ rep b) → ∃ a ∈ vars, ∃ b ∈ vars, a ≠ b ∧ rep a = rep b := by
  intro vars
  induction vars with
  | nil => intro _ h; exact absurd .nil h
  | cons v vars ih =>
    intro hnd h
    rw [List.nodup_cons] at hnd
    by_cases hx : ∃ w ∈ vars, rep v = rep w
    · obtain ⟨w, hw, e⟩ := hx
      exact ⟨v, by simp, w, by simp [hw], fun e => hnd.1 (e ▸ hw), e⟩
    · have hp : ¬ vars.Pairwise (fun a b => rep a ≠ rep b) := by
        intro hp
        exact h (List.pairwise_cons.mpr ⟨fun w hw e => hx ⟨w, hw, e⟩, hp⟩)
      obtain ⟨a, ha, b, hb, r⟩ := ih hnd.2 hp
      exact ⟨a, by simp [ha], b, by simp [hb], r⟩

theorem treeVars_simple {rep : Nat → Nat} : ∀ (vars seen : List Nat) (d : Decomposition) (P : Partition), Partition.Inv P rep → (∀ v ∈ vars, v < P.numberOfElements) →
    vars.Pairwise (fun a b => rep a ≠ rep b) → (∀ v ∈ vars, rep v ∉ seen) →
    ∃ P', treeVars vars seen d P = some (vars, d, P') ∧ Partition.Inv P' rep ∧ P'.numberOfElements = P.numberOfElements := by
  intro vars
  induction vars with
  | nil => intro seen d P h _ _ _; exact ⟨P, rfl, h, rfl⟩
  | cons v vars ih =>
    intro seen d P h hlt hp hs
    obtain ⟨P1, e1, i1, n1, _⟩ := Partition.find_spec h (hlt v (by simp))
    rw [List.pairwise_cons] at hp
    obtain ⟨P2, e2, i2, n2⟩ := ih (rep v :: seen) d P1 i1 (fun w hw => by rw [n1]; exact hlt w (by simp [hw])) hp.2 (by
      intro w hw hx
      rcases List.mem_cons.mp hx with hx | hx
      · exact hp.1 w hw hx.symm
      · exact hs w (by simp [hw]) hx)
    exact ⟨P2, by simp only [treeVars, e1, if_neg (hs v (by simp)), e2], i2, n2.trans n1⟩

/-- A model without cycles is not changed. -/
theorem treeFold_simple (hsc : ∀ vars ∈ scopes, ∀ v ∈ vars, v < n) (hnd : ∀ vars ∈ scopes, vars.Nodup) (hac : (bipartite scopes).IsAcyclic) :
    ∀ (todo : List (List Nat)) (i : Nat) (d : Decomposition) (P : Partition) (rep : Nat → Nat),
    (∀ j : Nat, todo[j]? = scopes[i + j]?) → Reachable n scopes d → d.numModels = 1 → Joined n 0 d rep → Partition.Inv P rep → P.numberOfElements = n →
    d.numSubFactors[0]? = some i → (∀ k j, (submodelGraph d.facLists 0).Adj (.inl k) (.inr j) → j < i ∧ (bipartite scopes).Adj (.inl k) (.inr j)) →
    ∃ d' P', (todo.zipIdx i).foldlM treeFactor (d, P) = some (d', P') ∧ d'.varLists = d.varLists := by
  intro todo
  induction todo with
  | nil =>
    intro i d P rep htodo h hm hJ _ _ _ _
    exact ⟨d, P, rfl, rfl⟩
  | cons vars todo ih =>
    intro i d P rep htodo h hm hJ hI hn hid hadj
    have hi : scopes[i]? = some vars := by
      have := htodo 0
      simp only [List.getElem?_cons_zero, Nat.add_zero] at this
      exact this.symm
    have htodo' : ∀ j : Nat, todo[j]? = scopes[(i + 1) + j]? := by
      intro j
      have := htodo (j + 1)
      rw [List.getElem?_cons_succ, show i + (j + 1) = i + 1 + j by omega] at this
      exact this
    have hlt := hsc vars (List.mem_of_getElem? hi)
    have hp : vars.Pairwise (fun a b => rep a ≠ rep b) := by
      by_contra hnp
      obtain ⟨a, ha, b, hb, hab, hr⟩ := not_pairwise_rep (hnd vars (List.mem_of_getElem? hi)) hnp
      have hreach := hJ.back a b (hlt a ha) (hlt b hb) hr
      have hea : (bipartite scopes).Adj (.inl a) (.inr i) := ⟨vars, hi, ha⟩
      have heb : (bipartite scopes).Adj (.inl b) (.inr i) := ⟨vars, hi, hb⟩
      have hbr := SimpleGraph.isAcyclic_iff_forall_adj_isBridge.mp hac hea
      rw [SimpleGraph.isBridge_iff] at hbr
      apply hbr
      have hle : submodelGraph d.facLists 0 ≤ (bipartite scopes).deleteEdges {s(Sum.inl a, Sum.inr i)} := by
        have hone : ∀ k j, (submodelGraph d.facLists 0).Adj (.inl k) (.inr j) → ((bipartite scopes).deleteEdges {s(Sum.inl a, Sum.inr i)}).Adj (.inl k) (.inr j) := by
          intro k j hkj
          obtain ⟨h1, h2⟩ := hadj k j hkj
          rw [SimpleGraph.deleteEdges_adj]
          refine ⟨h2, ?_⟩
          simp only [Set.mem_singleton_iff, Sym2.eq_iff, Sum.inl.injEq, Sum.inr.injEq, reduceCtorEq, and_false, or_false]
          omega
        rintro (x | x) (y | y) hxy
        · exact hxy.elim
        · exact hone x y hxy
        · exact (hone y x hxy.symm).symm
        · exact hxy.elim
      refine (hreach.mono hle).trans (SimpleGraph.Adj.reachable ?_)
      rw [SimpleGraph.deleteEdges_adj]
      refine ⟨heb, ?_⟩
      simp only [Set.mem_singleton_iff, Sym2.eq_iff, Sum.inl.injEq, reduceCtorEq, and_false, or_false, and_true]
      exact fun h => hab h.symm
    have hC : CopiesOf d.varLists 0 vars vars := by
      unfold CopiesOf
      rw [List.forall₂_same]
      exact fun v hx => hJ.orig v (hlt v hx)
    obtain ⟨P1, e1, i1, n1⟩ := treeVars_simple vars [] d P hI (fun v hv => by rw [hn]; exact hlt v hv) hp (by simp)
    obtain ⟨k, d2, e2, r2, k2, ks2, m2, v2, nv2, fc2, fl2⟩ := addFac_step h (by omega) hi hC
    rw [hid] at k2
    injection k2 with k2
    subst k2
    obtain ⟨P3, rep3, e3, i3, n3, h3⟩ := mergeChain_spec vars P1 rep i1 (fun v hv => by rw [n1, hn]; exact hlt v hv)
    have J2 : Joined n 0 d2 rep3 := by
      refine joined_addFac h hJ hid v2 fl2 hC ?_ (fun v hx => ⟨v, hx, hlt v hx, hx, rfl⟩) h3
      refine List.Pairwise.imp_of_mem ?_ hp
      intro a b ha hb hne hr
      exact hne (hJ.conn _ _ _ _ (hJ.orig a (hlt a ha)) (hJ.orig b (hlt b hb)) hr)
    have hml : 0 < d.numSubFactors.length := (List.getElem?_eq_some_iff.mp hid).1
    obtain ⟨d4, P4, e4, v4⟩ := ih (i + 1) d2 P3 rep3 htodo' r2 (by omega) J2 i3 (n3.trans (n1.trans hn)) (by rw [ks2, List.getElem?_set_self hml]) (by
      rintro k j ⟨s, h1, h2, h4, h5⟩
      rcases (fl2 s).mp h1 with h1 | rfl
      · obtain ⟨a, b⟩ := hadj k j ⟨s, h1, h2, h4, h5⟩
        exact ⟨by omega, b⟩
      · simp only [Option.some.injEq] at h4
        subst h4
        exact ⟨by omega, vars, hi, h5⟩)
    refine ⟨d4, P4, ?_, v4.trans v2⟩
    rw [List.zipIdx_cons, List.foldlM_cons]
    simp only [treeFactor, e1, e2, e3]
    exact e4

theorem passList_spec {m : Nat} (hsc : ∀ vars ∈ scopes, ∀ v ∈ vars, v < n) (hnd : ∀ vars ∈ scopes, vars.Nodup) : ∀ (fs : List Nat) (d : Decomposition) (P : Partition) (rep : Nat → Nat),
    Reachable n scopes d → m < d.numModels → Joined n m d rep → Partition.Inv P rep → P.numberOfElements = n → (∀ f ∈ fs, f < scopes.length) →
    ∃ kept ins d' P' rep', passList scopes m fs d P = some (kept, ins, d', P') ∧ Reachable n scopes d' ∧ d'.numModels = d.numModels ∧ Joined n m d' rep' ∧
      Partition.Inv P' rep' ∧ P'.numberOfElements = n ∧ d'.varLists = d.varLists ∧ (kept ++ ins).Perm fs ∧
      (∀ m', m' ≠ m → submodelGraph d'.facLists m' = submodelGraph d.facLists m') ∧
      (∀ m' f, facCopies d'.facLists m' f = facCopies d.facLists m' f + if m' = m then ins.count f else 0) ∧
      (∀ x y, rep x = rep y → rep' x = rep' y) ∧
      (∀ f ∈ kept, ∃ vars, scopes[f]? = some vars ∧ ∃ a ∈ vars, ∃ b ∈ vars, a ≠ b ∧ rep' a = rep' b) ∧
      ((∀ x y, rep x = rep y → x = y) → fs ≠ [] → ins ≠ []) := by
  intro fs
  induction fs with
  | nil =>
    intro d P rep h _ hJ hI hn _
    exact ⟨[], [], d, P, rep, rfl, h, rfl, hJ, hI, hn, rfl, .nil, fun _ _ => rfl, by simp, fun _ _ h => h, by simp, fun _ h => absurd rfl h⟩
  | cons f fs ih =>
    intro d P rep h hm hJ hI hn hlt
    obtain ⟨vars, hf⟩ : ∃ vars, scopes[f]? = some vars := ⟨_, List.getElem?_eq_getElem (hlt f (by simp))⟩
    have hv := hsc vars (List.mem_of_getElem? hf)
    have hvn := hnd vars (List.mem_of_getElem? hf)
    obtain ⟨b, P1, e1, i1, n1, ht, hfa⟩ := insertable_spec vars [] P hI (fun v hx => by rw [hn]; exact hv v hx)
    cases b with
    | true =>
      have hC : CopiesOf d.varLists m vars vars := by
        unfold CopiesOf
        rw [List.forall₂_same]
        exact fun v hx => hJ.orig v (hv v hx)
      obtain ⟨k, d2, e2, r2, k2, _, m2, v2, nv2, fc2, fl2⟩ := addFac_step h hm hf hC
      obtain ⟨P3, rep3, e3, i3, n3, h3⟩ := mergeChain_spec vars P1 rep i1 (fun v hx => by rw [n1, hn]; exact hv v hx)
      have J2 : Joined n m d2 rep3 := by
        refine joined_addFac h hJ k2 v2 fl2 hC ?_ (fun v hx => ⟨v, hx, hv v hx, hx, rfl⟩) h3
        refine List.Pairwise.imp_of_mem ?_ (ht rfl).1
        intro a b ha hb hne hr
        exact hne (hJ.conn _ _ _ _ (hJ.orig a (hv a ha)) (hJ.orig b (hv b hb)) hr)
      obtain ⟨kept, ins, d4, P4, rep4, e4, r4, m4, J4, i4, n4, v4, p4, g4, fc4, mo4, k4, _⟩ := ih d2 P3 rep3 r2 (by rw [m2]; exact hm) J2 i3 (n3.trans (n1.trans hn)) (fun x hx => hlt x (by simp [hx]))
      refine ⟨kept, f :: ins, d4, P4, rep4, by simp only [passList, hf, e1, e2, e3, e4], r4, m4.trans m2, J4, i4, n4, v4.trans v2,
        List.perm_middle.trans (p4.cons f), ?_, ?_, ?_, k4, fun _ _ => by simp⟩
      · intro m' hm'
        rw [g4 m' hm', submodelGraph_addFac_other fl2 hm']
      · intro m' f'
        rw [fc4, fc2, Nat.add_assoc]
        congr 1
        by_cases e : m' = m
        · rw [if_pos e, if_pos e, List.count_cons]
          by_cases e2 : f' = f
          · subst e2
            rw [if_pos ⟨e, rfl⟩, if_pos (by simp)]
            omega
          · rw [if_neg (fun h => e2 h.2), if_neg (by simp; exact fun h => e2 h.symm)]
            omega
        · rw [if_neg e, if_neg e, if_neg (fun h => e h.1)]
      · intro x y hxy
        exact mo4 x y ((h3 x y).mpr (Or.inl hxy))
    | false =>
      obtain ⟨kept, ins, d4, P4, rep4, e4, r4, m4, J4, i4, n4, v4, p4, g4, fc4, mo4, k4, _⟩ := ih d P1 rep h hm hJ i1 (n1.trans hn) (fun x hx => hlt x (by simp [hx]))
      obtain ⟨a, ha, b, hb, hab, hr⟩ := not_pairwise_rep hvn ((hfa rfl).resolve_left (by simp))
      refine ⟨f :: kept, ins, d4, P4, rep4, by simp only [passList, hf, e1, e4], r4, m4, J4, i4, n4, v4, p4.cons f, g4, fc4, mo4, ?_, ?_⟩
      · intro f' hf'
        rcases List.mem_cons.mp hf' with hf' | hf'
        · subst hf'
          exact ⟨vars, hf, a, ha, b, hb, hab, mo4 a b hr⟩
        · exact k4 f' hf'
      · intro hinj _
        exact absurd (hinj a b hr) hab

/-- A submodel of decomposeIntoSpanningTrees. -/
structure TreeModel (n : Nat) (scopes : List (List Nat)) (d : Decomposition) (m : Nat) : Prop where
  vars : ∀ v, varCopies d.varLists m v = if v < n then 1 else 0
  same : ∀ v, v < n → CopyOf d.varLists m v v
  facs : ∀ f, facCopies d.facLists m f ≤ 1
  acyclic : (submodelGraph d.facLists m).IsAcyclic
  maximal : ∀ (f : Nat) (vs : List Nat), scopes[f]? = some vs → facCopies d.facLists m f = 0 →
    ∃ a ∈ vs, ∃ b ∈ vs, a ≠ b ∧ (submodelGraph d.facLists m).Reachable (.inl a) (.inl b)

theorem spanningRound_spec (hsc : ∀ vars ∈ scopes, ∀ v ∈ vars, v < n) (hnd : ∀ vars ∈ scopes, vars.Nodup) {white black : List Nat} {d : Decomposition} (h : Reachable n scopes d)
    (hw : white ≠ []) (hp : (white ++ black).Perm (List.range scopes.length)) :
    ∃ white' gray d', spanningRound n scopes white black d = some (white', black ++ gray, d') ∧ Reachable n scopes d' ∧ d'.numModels = d.numModels + 1 ∧
      (white' ++ gray).Perm white ∧ gray ≠ [] ∧ TreeModel n scopes d' d.numModels ∧ (∀ f ∈ gray, 0 < facCopies d'.facLists d.numModels f) ∧
      (∀ m, m ≠ d.numModels → TreeModel n scopes d m → TreeModel n scopes d' m) ∧
      (∀ m f, m ≠ d.numModels → facCopies d'.facLists m f = facCopies d.facLists m f) := by
  obtain ⟨r0, hm0, M0, f0, v0⟩ := newModel (S := 0) h
  have hc0 : d.addSubModel.2.numSubVars[d.numModels]? = some 0 := numSubVars_zero r0 hm0 v0
  obtain ⟨d1, e1, r1, n1, fl1, _, c1, vc1, co1⟩ := addAll_spec (m := d.numModels) n 0 _ r0 hm0 hc0 (by omega)
  rw [← List.range_eq_range'] at e1
  have hmem : ∀ f, f ∈ white ++ black → f < scopes.length := fun f hf => List.mem_range.mp (hp.mem_iff.mp hf)
  have hcp : ∀ v, v < n → CopyOf d1.varLists d.numModels v v := fun v hv => (co1 _ _ _).mpr (Or.inr ⟨rfl, rfl, by omega, by omega⟩)
  have J1 : Joined n d.numModels d1 id := joined_start r1 hcp (by intro f; rw [fl1]; exact f0 f)
  obtain ⟨kept, gray, d2, P2, rep2, e2, r2, m2, J2, i2, n2, v2, p2, g2, fc2, mo2, k2, hne⟩ := passList_spec hsc hnd white d1 (Partition.ofSize n) id r1 (by rw [n1]; exact hm0) J1
    (Partition.ofSize_inv n) rfl (fun f hf => hmem f (by simp [hf]))
  obtain ⟨kept', ins, d3, P3, rep3, e3, r3, m3, J3, i3, n3, v3, p3, g3, fc3, mo3, k3, _⟩ := passList_spec hsc hnd black d2 P2 rep2 r2 (by rw [m2, n1]; exact hm0) J2
    i2 n2 (fun f hf => hmem f (by simp [hf]))
  have hfst : d.addSubModel.1 = d.numModels := rfl
  have hfc : ∀ f, facCopies d3.facLists d.numModels f = gray.count f + ins.count f := by
    intro f
    rw [fc3, fc2, fl1, f0, if_pos rfl, if_pos rfl]
    omega
  have hother : ∀ m f, m ≠ d.numModels → facCopies d3.facLists m f = facCopies d.facLists m f := by
    intro m f hm
    rw [fc3, fc2, fl1, if_neg hm, if_neg hm]
    rfl
  have hcount : ∀ f, kept.count f + gray.count f + (kept'.count f + ins.count f) ≤ 1 ∧
      (f < scopes.length → kept.count f + gray.count f + (kept'.count f + ins.count f) = 1) := by
    intro f
    have a := p2.count_eq f
    have b := p3.count_eq f
    have c := hp.count_eq f
    rw [List.count_append] at a b c
    rw [a, b, c]
    have hn := List.nodup_range (n := scopes.length)
    refine ⟨List.nodup_iff_count_le_one.mp hn f, fun hf => List.count_eq_one_of_mem hn (List.mem_range.mpr hf)⟩
  have hgv : ∀ m v, varCopies d3.varLists m v = varCopies d.varLists m v + if m = d.numModels ∧ v < n then 1 else 0 := by
    intro m v
    rw [v3, v2, vc1]
    show varCopies d.varLists m v + _ = _
    simp only [Nat.zero_le, true_and, Nat.zero_add]
  have hgr : ∀ m, m ≠ d.numModels → submodelGraph d3.facLists m = submodelGraph d.facLists m := by
    intro m hm
    rw [g3 m hm, g2 m hm, fl1]
    rfl
  refine ⟨kept, gray, d3, by simp only [spanningRound, hfst, e1, e2, e3], r3, by rw [m3, m2, n1]; rfl, p2, hne (fun _ _ h => h) hw, ?_, ?_, ?_, hother⟩
  · refine ⟨?_, J3.orig, ?_, J3.acyclic, ?_⟩
    · intro v
      rw [hgv, varCopies_new h (Nat.le_refl _), Nat.zero_add]
      simp
    · intro f
      rw [hfc]
      have := (hcount f).1
      omega
    · intro f vs hf h0
      rw [hfc] at h0
      have hflt := (List.getElem?_eq_some_iff.mp hf).1
      have h1 := (hcount f).2 hflt
      have hrep : ∃ a ∈ vs, ∃ b ∈ vs, a ≠ b ∧ rep3 a = rep3 b := by
        by_cases hk : f ∈ kept
        · obtain ⟨vars, a1, a, ha, b, hb, hab, hr⟩ := k2 f hk
          rw [hf] at a1
          injection a1 with a1
          subst a1
          exact ⟨a, ha, b, hb, hab, mo3 a b hr⟩
        · have hk' : f ∈ kept' := by
            rw [← List.count_pos_iff]
            have := List.count_eq_zero_of_not_mem hk
            omega
          obtain ⟨vars, a1, a, ha, b, hb, hab, hr⟩ := k3 f hk'
          rw [hf] at a1
          injection a1 with a1
          subst a1
          exact ⟨a, ha, b, hb, hab, hr⟩
      obtain ⟨a, ha, b, hb, hab, hr⟩ := hrep
      have hlt := hsc vs (List.mem_of_getElem? hf)
      exact ⟨a, ha, b, hb, hab, J3.back a b (hlt a ha) (hlt b hb) hr⟩
  · intro f hf
    rw [hfc]
    have := List.count_pos_iff.mpr hf
    omega
  · intro m hm hT
    refine ⟨?_, ?_, ?_, ?_, ?_⟩
    · intro v
      rw [hgv, if_neg (fun h => hm h.1), hT.vars, Nat.add_zero]
    · intro v hv
      rw [v3, v2, co1]
      exact Or.inl (hT.same v hv)
    · intro f
      rw [hother m f hm]
      exact hT.facs f
    · rw [hgr m hm]
      exact hT.acyclic
    · intro f vs hf h0
      rw [hother m f hm] at h0
      rw [hgr m hm]
      exact hT.maximal f vs hf h0

theorem spanningLoop_spec (hsc : ∀ vars ∈ scopes, ∀ v ∈ vars, v < n) (hnd : ∀ vars ∈ scopes, vars.Nodup) : ∀ (fuel : Nat) (white black : List Nat) (d : Decomposition), Reachable n scopes d →
    white.length ≤ fuel → (white ++ black).Perm (List.range scopes.length) → (∀ m, m < d.numModels → TreeModel n scopes d m) →
    (∀ f ∈ black, ∃ m, m < d.numModels ∧ 0 < facCopies d.facLists m f) →
    ∃ d', spanningLoop n scopes fuel white black d = some d' ∧ Reachable n scopes d' ∧ (∀ m, m < d'.numModels → TreeModel n scopes d' m) ∧
      (∀ f, f < scopes.length → ∃ m, m < d'.numModels ∧ 0 < facCopies d'.facLists m f) ∧
      d.numModels ≤ d'.numModels ∧ d'.numModels ≤ d.numModels + white.length ∧ (white ≠ [] → d.numModels < d'.numModels) := by
  intro fuel
  induction fuel with
  | zero =>
    intro white black d h hl hp hT hB
    have : white = [] := List.length_eq_zero_iff.mp (by omega)
    subst this
    refine ⟨d, rfl, h, hT, ?_, Nat.le_refl _, by simp, fun h => absurd rfl h⟩
    intro f hf
    exact hB f (hp.mem_iff.mpr (List.mem_range.mpr hf))
  | succ fuel ih =>
    intro white black d h hl hp hT hB
    cases white with
    | nil =>
      refine ⟨d, rfl, h, hT, ?_, Nat.le_refl _, by simp, fun h => absurd rfl h⟩
      intro f hf
      exact hB f (hp.mem_iff.mpr (List.mem_range.mpr hf))
    | cons f fs =>
      obtain ⟨white', gray, d1, e1, r1, n1, p1, hne, T1, G1, O1, F1⟩ := spanningRound_spec hsc hnd h (by simp) hp
      have hlen := p1.length_eq
      rw [List.length_append] at hlen
      have hpos : 0 < gray.length := List.length_pos_iff.mpr hne
      obtain ⟨d2, e2, r2, T2, C2, a2, b2, _⟩ := ih white' (black ++ gray) d1 r1 (by omega)
        (by
          refine List.Perm.trans ?_ hp
          have : (white' ++ (black ++ gray)).Perm ((white' ++ gray) ++ black) := by
            rw [List.append_assoc]
            exact List.Perm.append_left _ List.perm_append_comm
          exact this.trans (p1.append_right black))
        (by
          intro m hm
          by_cases e : m = d.numModels
          · rw [e]; exact T1
          · exact O1 m e (hT m (by omega)))
        (by
          intro x hx
          rcases List.mem_append.mp hx with hx | hx
          · obtain ⟨m, h1, h2⟩ := hB x hx
            exact ⟨m, by omega, by rw [F1 m x (by omega)]; exact h2⟩
          · exact ⟨d.numModels, by omega, G1 x hx⟩)
      exact ⟨d2, by simp only [spanningLoop, e1, e2], r2, T2, C2, by omega, by omega, fun _ => by omega⟩

end Decomposer
end OpenGM
