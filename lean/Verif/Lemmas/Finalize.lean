import Verif.Lemmas.GraphicalModel
/-
addFactorNonFinalized, finalize, and rejected factors.
-/
namespace OpenGM
open Spec
variable {V : Type}

/-- What the checking loops require of the variable at position `j`. -/
def StepOk (n : Nat) (vars : List Nat) (j : Nat) : Prop :=
  ∃ x, vars[j]? = some x ∧ x < n ∧ (j ≠ 0 → ∃ y, vars[j - 1]? = some y ∧ y < x)

theorem valid_iff_stepOk (n : Nat) (vars : List Nat) :
    (vars.Pairwise (· < ·) ∧ ∀ v ∈ vars, v < n) ↔ ∀ j, j < vars.length → StepOk n vars j := by
  constructor
  · rintro ⟨hp, hr⟩ j hj
    refine ⟨vars[j], List.getElem?_eq_getElem hj, hr _ (List.getElem_mem hj), fun h0 => ?_⟩
    have h1 : j - 1 < vars.length := by omega
    exact ⟨vars[j - 1], List.getElem?_eq_getElem h1,
      (List.pairwise_iff_getElem.mp hp) (j - 1) j h1 hj (by omega)⟩
  · intro h
    have hr : ∀ v ∈ vars, v < n := by
      intro v hv
      obtain ⟨j, hj, rfl⟩ := List.getElem_of_mem hv
      obtain ⟨x, h1, h2, _⟩ := h j hj
      rw [List.getElem?_eq_getElem hj] at h1
      obtain rfl := Option.some.inj h1
      exact h2
    refine ⟨?_, hr⟩
    have key : ∀ d i, (hi : i < vars.length) → (hd : i + d + 1 < vars.length) → vars[i] < vars[i + d + 1] := by
      intro d
      induction d with
      | zero =>
        intro i hi hd
        obtain ⟨x, h1, _, h3⟩ := h (i + 1) hd
        obtain ⟨y, h4, h5⟩ := h3 (by omega)
        rw [List.getElem?_eq_getElem hd] at h1
        simp only [Nat.add_sub_cancel] at h4
        rw [List.getElem?_eq_getElem hi] at h4
        obtain rfl := Option.some.inj h1
        obtain rfl := Option.some.inj h4
        exact h5
      | succ d ih =>
        intro i hi hd
        have h1 := ih i hi (by omega)
        obtain ⟨x, h2, _, h3⟩ := h (i + (d + 1) + 1) hd
        obtain ⟨y, h4, h5⟩ := h3 (by omega)
        rw [List.getElem?_eq_getElem hd] at h2
        have e : i + (d + 1) + 1 - 1 = i + d + 1 := by omega
        rw [e, List.getElem?_eq_getElem (by omega)] at h4
        obtain rfl := Option.some.inj h2
        rw [Option.some.inj h4] at h1
        exact lt_trans h1 h5
    rw [List.pairwise_iff_getElem]
    intro i j hi hj hij
    have := key (j - i - 1) i hi (by omega)
    have e : i + (j - i - 1) + 1 = j := by omega
    simpa only [e] using this

/-- The check at one position, as both loops perform it. -/
theorem check_eq (gm : GM V) (f : FactorRec) (vars : List Nat) (i x : Nat)
    (hvis : ∀ j, j < f.visSize → gm.visAt f j = vars[j]?) (hl : f.visSize = vars.length) (hi : i < f.visSize)
    (hx : vars[i]? = some x) :
    ((if i = 0 then some true else (gm.visAt f (i - 1)).map (fun vp => decide (vp < x))) = some true ∧ x < gm.numLabels.length
      ↔ StepOk gm.numLabels.length vars i) ∧
    (if i = 0 then some true else (gm.visAt f (i - 1)).map (fun vp => decide (vp < x))) ≠ none := by
  by_cases h0 : i = 0
  · subst h0
    simp [StepOk, hx]
  · have h1 : i - 1 < vars.length := by omega
    rw [hvis (i - 1) (by omega), List.getElem?_eq_getElem h1]
    simp [StepOk, hx, h0, List.getElem?_eq_getElem h1]
    tauto

/-- The checking/insertion loop of `addFactor` never runs into undefined behaviour; it succeeds iff all checks pass; it
changes nothing but the adjacency. -/
theorem addFactorLoop_total (f : FactorRec) (vars : List Nat) (idx : Nat) (hl : f.visSize = vars.length) :
    ∀ (k i : Nat) (gm : GM V), (∀ j, j < f.visSize → gm.visAt f j = vars[j]?) →
      gm.adj.length = gm.numLabels.length → i + k = f.visSize →
      ((∀ j, i ≤ j → j < vars.length → StepOk gm.numLabels.length vars j) ∧
        ∃ adj', GM.addFactorLoop gm f idx i k = .ok idx { gm with adj := adj' } ∧ adj'.length = gm.adj.length) ∨
      (¬(∀ j, i ≤ j → j < vars.length → StepOk gm.numLabels.length vars j) ∧
        ∃ adj', GM.addFactorLoop gm f idx i k = .throw { gm with adj := adj' } ∧ adj'.length = gm.adj.length) := by
  intro k
  induction k with
  | zero =>
    intro i gm hvis ha hik
    left
    exact ⟨fun j h1 h2 => by omega, gm.adj, rfl, rfl⟩
  | succ k ih =>
    intro i gm hvis ha hik
    have hi : i < vars.length := by omega
    have hx := List.getElem?_eq_getElem hi
    have hv := hvis i (by omega)
    obtain ⟨hc, hn⟩ := check_eq gm f vars i vars[i] hvis hl (by omega) hx
    unfold GM.addFactorLoop
    rw [hv, hx]
    simp only
    by_cases hok : StepOk gm.numLabels.length vars i
    · have hc' := hc.mpr hok
      have hvlt : vars[i] < gm.adj.length := by rw [ha]; exact hc'.2
      rw [hc'.1]
      simp only [GM.numberOfVariables, hc'.2, if_true, List.getElem?_eq_getElem hvlt]
      rcases ih (i + 1) { gm with adj := gm.adj.set vars[i] (RandomAccessSet.insert natLess gm.adj[vars[i]] idx).1 }
        (fun j hj => hvis j hj) (by simp [ha]) (by omega) with ⟨h1, adj', h2, h3⟩ | ⟨h1, adj', h2, h3⟩
      · left
        refine ⟨fun j hj1 hj2 => ?_, adj', h2, by simpa using h3⟩
        by_cases e : j = i
        · exact e ▸ hok
        · exact h1 j (by omega) hj2
      · right
        refine ⟨fun h => h1 (fun j hj1 hj2 => h j (by omega) hj2), adj', h2, by simpa using h3⟩
    · right
      refine ⟨fun h => hok (h i (le_refl _) hi), gm.adj, ?_, rfl⟩
      have hc' : ¬ _ := fun h => hok (hc.mp h)
      split
      · rename_i e; exact absurd e hn
      · rfl
      · rename_i e
        have : ¬ vars[i] < gm.numberOfVariables := fun h => hc' ⟨e, h⟩
        simp [this]

theorem checkFactorLoop_total (f : FactorRec) (vars : List Nat) (idx : Nat) (hl : f.visSize = vars.length) (gm : GM V)
    (hvis : ∀ j, j < f.visSize → gm.visAt f j = vars[j]?) :
    ∀ (k i : Nat), i + k = f.visSize →
      ((∀ j, i ≤ j → j < vars.length → StepOk gm.numLabels.length vars j) ∧
        GM.checkFactorLoop gm f idx i k = .ok idx gm) ∨
      (¬(∀ j, i ≤ j → j < vars.length → StepOk gm.numLabels.length vars j) ∧
        GM.checkFactorLoop gm f idx i k = .throw gm) := by
  intro k
  induction k with
  | zero =>
    intro i hik
    left
    exact ⟨fun j h1 h2 => by omega, rfl⟩
  | succ k ih =>
    intro i hik
    have hi : i < vars.length := by omega
    have hx := List.getElem?_eq_getElem hi
    have hv := hvis i (by omega)
    obtain ⟨hc, hn⟩ := check_eq gm f vars i vars[i] hvis hl (by omega) hx
    unfold GM.checkFactorLoop
    rw [hv, hx]
    simp only
    by_cases hok : StepOk gm.numLabels.length vars i
    · have hc' := hc.mpr hok
      rw [hc'.1]
      simp only [GM.numberOfVariables, hc'.2, if_true]
      rcases ih (i + 1) (by omega) with ⟨h1, h2⟩ | ⟨h1, h2⟩
      · left
        refine ⟨fun j hj1 hj2 => ?_, h2⟩
        by_cases e : j = i
        · exact e ▸ hok
        · exact h1 j (by omega) hj2
      · right
        exact ⟨fun h => h1 (fun j hj1 hj2 => h j (by omega) hj2), h2⟩
    · right
      refine ⟨fun h => hok (h i (le_refl _) hi), ?_⟩
      have hc' : ¬ _ := fun h => hok (hc.mp h)
      split
      · rename_i e; exact absurd e hn
      · rfl
      · rename_i e
        have : ¬ vars[i] < gm.numberOfVariables := fun h => hc' ⟨e, h⟩
        simp [this]

theorem pushFactor_visAt (gm : GM V) (fid : FunctionIdentifier) (vars : List Nat) (j : Nat)
    (hj : j < (gm.pushFactor fid vars).2.visSize) :
    (gm.pushFactor fid vars).1.visAt (gm.pushFactor fid vars).2 j = vars[j]? := by
  simp only [GM.visAt, GM.pushFactor]
  rw [List.getElem?_append_right (by omega)]
  congr 1; omega

theorem addFactor_total (gm : GM V) (fid : FunctionIdentifier) (vars : List Nat)
    (ha : gm.adj.length = gm.numLabels.length) :
    ((vars.Pairwise (· < ·) ∧ ∀ v ∈ vars, v < gm.numLabels.length) ∧
      ∃ adj', gm.addFactor fid vars = .ok gm.factors.length { (gm.pushFactor fid vars).1 with adj := adj' } ∧
        adj'.length = gm.adj.length) ∨
    (¬(vars.Pairwise (· < ·) ∧ ∀ v ∈ vars, v < gm.numLabels.length) ∧
      ∃ adj', gm.addFactor fid vars = .throw { (gm.pushFactor fid vars).1 with adj := adj' } ∧
        adj'.length = gm.adj.length) := by
  have := addFactorLoop_total (gm.pushFactor fid vars).2 vars gm.factors.length rfl
    (gm.pushFactor fid vars).2.visSize 0 (gm.pushFactor fid vars).1 (pushFactor_visAt gm fid vars) ha (by simp)
  rw [valid_iff_stepOk]
  simp only [Nat.zero_le, true_implies] at this
  exact this

theorem addFactorNonFinalized_total (gm : GM V) (fid : FunctionIdentifier) (vars : List Nat) :
    ((vars.Pairwise (· < ·) ∧ ∀ v ∈ vars, v < gm.numLabels.length) ∧
      gm.addFactorNonFinalized fid vars = .ok gm.factors.length (gm.pushFactor fid vars).1) ∨
    (¬(vars.Pairwise (· < ·) ∧ ∀ v ∈ vars, v < gm.numLabels.length) ∧
      gm.addFactorNonFinalized fid vars = .throw (gm.pushFactor fid vars).1) := by
  have := checkFactorLoop_total (gm.pushFactor fid vars).2 vars gm.factors.length rfl
    (gm.pushFactor fid vars).1 (pushFactor_visAt gm fid vars) (gm.pushFactor fid vars).2.visSize 0 (by simp)
  rw [valid_iff_stepOk]
  simp only [Nat.zero_le, true_implies] at this
  exact this

/-! ### `finalize` -/

theorem finalizeFactor_spec {gm : GM V} {f : FactorRec} {t : Term V} (hm : FactorMatches gm f t) (fi : Nat) :
    ∀ (k i : Nat) (sets : List (List Nat)), sets.length = gm.numLabels.length → i + k = f.visSize →
    ∃ sets', GM.finalizeFactor gm f fi i k sets = some sets' ∧ sets'.length = sets.length ∧
      ∀ v, sets'[v]? = if v ∈ t.vars.drop i then (sets[v]?).map (fun s => (RandomAccessSet.insert natLess s fi).1)
        else sets[v]? := by
  intro k
  induction k with
  | zero =>
    intro i sets hl hik
    refine ⟨sets, rfl, rfl, ?_⟩
    intro v
    have : t.vars.drop i = [] := by rw [List.drop_eq_nil_iff, ← hm.visSize]; omega
    simp [this]
  | succ k ih =>
    intro i sets hl hik
    have hi : i < t.vars.length := by rw [← hm.visSize]; omega
    have hvi : gm.visAt f i = some (t.vars[i]) := by
      rw [hm.visAt i (by omega)]; simp [hi]
    have hvlt : t.vars[i] < sets.length := by rw [hl]; exact hm.range _ (List.getElem_mem hi)
    have hadj := List.getElem?_eq_getElem hvlt
    obtain ⟨sets', e1, e2, e3⟩ := ih (i + 1) (sets.set t.vars[i] (RandomAccessSet.insert natLess sets[t.vars[i]] fi).1)
      (by simp [hl]) (by omega)
    refine ⟨sets', ?_, by simpa using e2, ?_⟩
    · unfold GM.finalizeFactor
      simp only [hvi, hadj]
      exact e1
    · intro v
      rw [e3 v]
      have hdrop : t.vars.drop i = t.vars[i] :: t.vars.drop (i + 1) := List.drop_eq_getElem_cons hi
      have hnd : t.vars[i] ∉ t.vars.drop (i + 1) := by
        have hp := List.Pairwise.drop (i := i) hm.sorted
        rw [hdrop, List.pairwise_cons] at hp
        intro hmem
        exact absurd (hp.1 _ hmem) (lt_irrefl _)
      rw [hdrop]
      by_cases hv : v = t.vars[i]
      · subst hv
        simp only [hnd, if_false, List.mem_cons, true_or, if_true, hadj, Option.map_some]
        rw [List.getElem?_set_self hvlt]
      · simp only [List.mem_cons, hv, false_or]
        rw [List.getElem?_set_ne (fun e => hv e.symm)]

theorem finalizeLoop_spec {gm : GM V} (fs : List FactorRec) (ts : List (Term V))
    (h : List.Forall₂ (FactorMatches gm) fs ts) (done : List (Term V)) (sets : List (List Nat))
    (hl : sets.length = gm.numLabels.length)
    (hs : ∀ v, v < gm.numLabels.length → sets[v]? = some ((List.range done.length).filter (mentions done v))) :
    ∃ sets', GM.finalizeLoop gm fs done.length sets = some sets' ∧ sets'.length = gm.numLabels.length ∧
      ∀ v, v < gm.numLabels.length →
        sets'[v]? = some ((List.range (done ++ ts).length).filter (mentions (done ++ ts) v)) := by
  induction h generalizing done sets with
  | nil => exact ⟨sets, rfl, hl, by simpa using hs⟩
  | @cons f t fs ts hm h ih =>
    obtain ⟨sets', e1, e2, e3⟩ := finalizeFactor_spec hm done.length f.visSize 0 sets hl (by simp)
    obtain ⟨sets'', e4, e5, e6⟩ := ih (done ++ [t]) sets' (by rw [e2, hl]) (by
      intro v hv
      rw [e3 v, filter_mentions_append, hs v hv]
      simp only [List.drop_zero, Option.map_some]
      split
      · rw [insert_gt]
        intro e he
        exact List.mem_range.mp (List.mem_filter.mp he).1
      · simp)
    refine ⟨sets'', ?_, e5, ?_⟩
    · unfold GM.finalizeLoop
      rw [e1]
      simpa using e4
    · simpa using e6

theorem assignAdj_spec (sets : List (List Nat)) : ∀ (adj : List (List Nat)) (vi : Nat),
    vi + sets.length = adj.length → GM.assignAdj adj sets vi = some (adj.take vi ++ sets) := by
  induction sets with
  | nil =>
    intro adj vi h
    simp only [List.length_nil, Nat.add_zero] at h
    simp [GM.assignAdj, h]
  | cons s sets ih =>
    intro adj vi h
    simp only [List.length_cons] at h
    have hvi : vi < adj.length := by omega
    unfold GM.assignAdj
    rw [setAt_of_lt _ hvi]
    simp only
    rw [ih _ _ (by simp; omega)]
    congr 1
    rw [List.take_set, List.take_succ_eq_append_getElem hvi, List.set_append_right _ _ (by simp)]
    simp [Nat.min_eq_left hvi.le]

/-- `finalize` makes the adjacency exact and changes nothing else. -/
theorem finalize_spec {gm : GM V} {p : Problem V} (h : Stores gm p) :
    ∃ adj', gm.finalize = some { gm with adj := adj' } ∧ Represents { gm with adj := adj' } p := by
  obtain ⟨sets, e1, e2, e3⟩ := finalizeLoop_spec gm.factors p.terms h.factors []
    (List.replicate gm.numberOfVariables []) (by simp [GM.numberOfVariables]) (by
      intro v hv
      simp [GM.numberOfVariables, hv])
  refine ⟨sets, ?_, ⟨⟨h.labels, e2, ?_, h.order⟩, ?_⟩⟩
  · unfold GM.finalize
    simp only [List.length_nil] at e1
    rw [e1]
    simp only
    rw [assignAdj_spec _ _ _ (by rw [e2, h.adjLen]; simp)]
    simp
  · refine List.Forall₂.imp ?_ h.factors
    intro f t hm
    exact ⟨hm.bound, hm.scope, hm.sorted, hm.range, hm.fn⟩
  · simpa using e3

/-! ### Adding many factors -/

/-- A list of `addFactor` calls. -/
def addFactors (gm : GM V) : List (FunctionIdentifier × List Nat) → Outcome (GM V) Unit
  | [] => .ok () gm
  | (fid, vars) :: rest =>
    match gm.addFactor fid vars with
    | .ok _ gm' => addFactors gm' rest
    | .throw gm' => .throw gm'
    | .ub => .ub

/-- A list of `addFactorNonFinalized` calls. -/
def addFactorsNonFinalized (gm : GM V) : List (FunctionIdentifier × List Nat) → Outcome (GM V) Unit
  | [] => .ok () gm
  | (fid, vars) :: rest =>
    match gm.addFactorNonFinalized fid vars with
    | .ok _ gm' => addFactorsNonFinalized gm' rest
    | .throw gm' => .throw gm'
    | .ub => .ub

theorem list_ext_adj {a b : List (List Nat)} (n : Nat) (ha : a.length = n) (hb : b.length = n)
    (h : ∀ v, v < n → a[v]? = b[v]?) : a = b := by
  apply List.ext_getElem?
  intro v
  by_cases hv : v < n
  · exact h v hv
  · rw [List.getElem?_eq_none (by omega), List.getElem?_eq_none (by omega)]

theorem addFactors_equiv (l : List (FunctionIdentifier × List Nat)) :
    ∀ (gmA gmB : GM V) (p : Problem V), Represents gmA p → Stores gmB p →
      gmB = { gmA with adj := gmB.adj } →
      (∀ x ∈ l, x.2.Pairwise (· < ·) ∧ (∀ v ∈ x.2, v < gmA.numLabels.length) ∧
        ∃ fn, gmA.getFunction x.1 = some fn ∧ fn.shape = restrict gmA.numLabels x.2) →
      ∃ gm' gm'' p', addFactors gmA l = .ok () gm' ∧ addFactorsNonFinalized gmB l = .ok () gm'' ∧
        gm''.finalize = some gm' ∧ Represents gm' p' := by
  induction l with
  | nil =>
    intro gmA gmB p hA hB heq _
    obtain ⟨adj', e1, e2⟩ := finalize_spec hB
    refine ⟨gmA, gmB, p, rfl, rfl, ?_, hA⟩
    rw [e1]
    congr 1
    have : adj' = gmA.adj := by
      have hn : gmB.numLabels = gmA.numLabels := by rw [heq]
      apply list_ext_adj gmA.numLabels.length
      · have := e2.adjLen; simpa [hn] using this
      · exact hA.adjLen
      · intro v hv
        have h1 := e2.adj v (by simpa [hn] using hv)
        have h2 := hA.adj v hv
        rw [h2]; exact h1
    rw [heq, this]
  | cons x l ih =>
    intro gmA gmB p hA hB heq hv
    obtain ⟨fid, vars⟩ := x
    obtain ⟨h1, h2, fn, h3, h4⟩ := hv (fid, vars) (by simp)
    obtain ⟨gm', e1, e2, e3⟩ := represents_addFactor hA fid ⟨vars, fn.table⟩ fn h1 h2 h3 h4 (fun _ _ => rfl)
    simp only at e1
    have hn : gmB.numLabels = gmA.numLabels := by rw [heq]
    have hg : gmB.getFunction fid = some fn := by rw [heq]; exact h3
    obtain ⟨s1, _⟩ := stores_pushFactor hB fid ⟨vars, fn.table⟩ fn h1 (by rw [hn]; exact h2) hg (by rw [hn]; exact h4)
      (fun _ _ => rfl)
    have hB' : gmB.addFactorNonFinalized fid vars = .ok gmB.factors.length (gmB.pushFactor fid vars).1 := by
      rcases addFactorNonFinalized_total gmB fid vars with ⟨_, h⟩ | ⟨h, _⟩
      · exact h
      · exact absurd ⟨h1, by rw [hn]; exact h2⟩ h
    have hA' : ∃ adj', gm' = { (gmA.pushFactor fid vars).1 with adj := adj' } := by
      rcases addFactor_total gmA fid vars hA.adjLen with ⟨_, adj', h, _⟩ | ⟨_, adj', h, _⟩
      · rw [h] at e1
        injection e1 with _ e1
        exact ⟨adj', e1.symm⟩
      · rw [h] at e1; simp at e1
    obtain ⟨adj', hA'⟩ := hA'
    have hnl : gm'.numLabels = gmA.numLabels := by rw [hA']; rfl
    obtain ⟨g1, g2, p', r1, r2, r3, r4⟩ := ih gm' (gmB.pushFactor fid vars).1 _ e2 s1 (by
      rw [hA', heq]; rfl) (by
      intro y hy
      obtain ⟨y1, y2, fn', y3, y4⟩ := hv y (by simp [hy])
      refine ⟨y1, by rw [hnl]; exact y2, fn', ?_, by rw [hnl]; exact y4⟩
      simp only [GM.getFunction, e3]; exact y3)
    refine ⟨g1, g2, p', ?_, ?_, r3, r4⟩
    · simp only [addFactors, e1]; exact r1
    · simp only [addFactorsNonFinalized, hB']; exact r2

end OpenGM
