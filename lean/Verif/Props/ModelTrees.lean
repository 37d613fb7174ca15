import Verif.Lemmas.ModelTrees
/-
C89: the trees of a model.
-/
namespace OpenGM
namespace ModelTrees
open Spec SwendsenWang
variable {V : Type}

theorem resized_length {A : Type} (a : A) (l : List A) (k : Nat) : (resized a l k).length = k := by unfold resized; simp; omega

theorem resized_get {A : Type} (a : A) (l : List A) (k j : Nat) (hj : j < k) : (resized a l k)[j]? = some (l.getD j a) := by
  unfold resized
  rw [List.getElem?_append, List.length_take, List.getD_eq_getElem?_getD]
  by_cases hl : j < l.length
  · rw [if_pos (by omega), List.getElem?_take, if_pos hj, List.getElem?_eq_getElem hl]
    rfl
  · rw [if_neg (by omega), List.getElem?_replicate, if_pos (by omega), List.getElem?_eq_none (by omega)]
    rfl

/-- The roots, in increasing order. -/
def rootList (n : Nat) (par : Nat → Nat) : List Nat := (List.range n).filter (fun v => par v = v)

/-- C89: for every model the constructor succeeds and finds the trees that hang on the rest of the model: parentOfVariable gives the parents (the variable itself for a root,
the number of variables for a variable in no tree); treeOfVariable gives the root of the tree and treeOfRoot its number; numberOfTrees and roots give the number and the list of
the roots; and nodes appends to the entry of each tree its variables, in increasing order. -/
theorem C89_trees {gm : GM V} {p : Problem V} (hb : BuiltModel gm p) :
    ∃ m par, construct gm = some m ∧ HangingTrees p par ∧
      (∀ i, i < p.numLabels.length → m.parentOfVariable i = some (par i)) ∧
      (∀ i, i < p.numLabels.length → par i = p.numLabels.length → m.treeOfVariable i = some p.numLabels.length ∧ m.treeOfRoot i = some p.numLabels.length) ∧
      (∀ i, i < p.numLabels.length → par i ≠ p.numLabels.length → ∃ r j, r < p.numLabels.length ∧ IsRootOf par i r ∧ m.treeOfVariable i = some r ∧
        m.treeOfRoot i = some j ∧ (rootList p.numLabels.length par)[j]? = some r) ∧
      m.numberOfTrees = (rootList p.numLabels.length par).length ∧
      (∀ out, m.rootsOf out = some (rootList p.numLabels.length par)) ∧
      ∀ out, ∃ out', m.nodes out = some out' ∧ out'.length = (rootList p.numLabels.length par).length ∧ ∀ (j r : Nat), (rootList p.numLabels.length par)[j]? = some r →
        out'[j]? = some (out.getD j [] ++ (List.range p.numLabels.length).filter (fun i => m.treeOfVariable i = some r)) := by
  have h := hb.represents
  obtain ⟨neighbors, degree, parents, leafs, st, done, par, e1, e2, e3, hinv, e4⟩ := leafs_spec h
  obtain ⟨_, _, ha⟩ := adj_spec h
  have hr := ha.range
  have hn : gm.numberOfVariables = p.numLabels.length := by unfold GM.numberOfVariables; rw [h.labels]
  rw [hn] at e2 e3
  obtain ⟨n, hndef⟩ : ∃ n, n = p.numLabels.length := ⟨_, rfl⟩
  have hnum := numberRoots_spec st.roots (fun v => decide (par v = v)) (List.range p.numLabels.length) [] 0 (fun i hi => hinv.roots i (List.mem_range.mp hi))
  rw [List.nil_append, Nat.zero_add] at hnum
  have hroots : (List.range p.numLabels.length).filter (fun v => decide (par v = v)) = rootList p.numLabels.length par := rfl
  rw [hroots] at hnum
  obtain ⟨m, hm⟩ : ∃ m : Trees, m = ⟨p.numLabels.length, (rootList p.numLabels.length par).zipIdx, st.parents, st.roots, (rootList p.numLabels.length par).length⟩ := ⟨_, rfl⟩
  have hpar : ∀ i, i < p.numLabels.length → m.parents[i]? = some (par i) := by intro i hi; rw [hm]; exact hinv.parents i hi
  have hnv : m.numberOfVariables = p.numLabels.length := by rw [hm]
  have hrep : ∀ r, r < p.numLabels.length → par r = r → m.representive r = (rootList p.numLabels.length par).idxOf r := by
    intro r hr hpr
    have hmem : r ∈ rootList p.numLabels.length par := List.mem_filter.mpr ⟨List.mem_range.mpr hr, by simpa using hpr⟩
    unfold Trees.representive
    rw [hm]
    simp only
    rw [find_zipIdx r _ 0 hmem, Nat.zero_add]
  have htree : ∀ i, i < p.numLabels.length → par i ≠ p.numLabels.length → ∃ r, r < p.numLabels.length ∧ IsRootOf par i r ∧ m.treeOfVariable i = some r ∧
      m.treeOfRoot i = some ((rootList p.numLabels.length par).idxOf r) ∧ r ∈ rootList p.numLabels.length par := by
    intro i hi hpi
    obtain ⟨r, r1, r2, r3, r4⟩ := root_of hr hinv hi hpi
    have ht : m.treeOfVariable i = some r := by
      unfold Trees.treeOfVariable
      rw [hpar i hi]
      simp only
      rw [hnv, if_neg hpi, hm]
      exact r1
    refine ⟨r, r2, ⟨r3, r4⟩, ht, ?_, List.mem_filter.mpr ⟨List.mem_range.mpr r2, by simpa using r3⟩⟩
    unfold Trees.treeOfRoot
    rw [hpar i hi]
    simp only
    rw [hnv, if_neg hpi, ht]
    simp only
    rw [hrep r r2 r3]
  refine ⟨m, par, ?_, hangingTrees hr hinv e4, ?_, ?_, ?_, by rw [hm]; rfl, ?_, ?_⟩
  · unfold construct
    rw [e1]
    simp only
    rw [hn, e2]
    simp only
    rw [e3]
    simp only
    rw [hnum, hm]
  · intro i hi
    unfold Trees.parentOfVariable
    rw [hpar i hi]
    simp only
    split
    · rename_i h'
      rw [h']
    · rfl
  · intro i hi hpi
    unfold Trees.treeOfVariable Trees.treeOfRoot
    rw [hpar i hi]
    simp only
    rw [hnv, if_pos hpi, if_pos hpi]
    exact ⟨rfl, rfl⟩
  · intro i hi hpi
    obtain ⟨r, r1, r2, r3, r4, r5⟩ := htree i hi hpi
    exact ⟨r, _, r1, r2, r3, r4, List.getElem?_idxOf r5⟩
  · intro out
    unfold Trees.rootsOf
    have := rootsLoop_spec st.roots (fun v => decide (par v = v)) (List.range p.numLabels.length) 0 (resized 0 out m.numberOfRoots) (fun i hi => hinv.roots i (List.mem_range.mp hi))
      (by rw [resized_length, hm, Nat.zero_add]; rfl)
    rw [hnv]
    rw [List.take_zero, List.nil_append] at this
    rw [show m.roots = st.roots by rw [hm], this]
    rfl
  · intro out
    have hK : m.numberOfRoots = (rootList p.numLabels.length par).length := by rw [hm]
    classical
    obtain ⟨idx, hidx⟩ : ∃ idx : Nat → Nat, ∀ i, idx i = match m.treeOfRoot i with | some j => j | none => 0 := ⟨_, fun _ => rfl⟩
    obtain ⟨out', o1, o2, o3⟩ := nodesLoop_spec m par idx (List.range p.numLabels.length) (resized [] out m.numberOfRoots) (fun i hi => hpar i (List.mem_range.mp hi)) (by
      intro i hi hpi
      rw [hnv] at hpi
      obtain ⟨r, r1, r2, r3, r4, r5⟩ := htree i (List.mem_range.mp hi) hpi
      refine ⟨r, r3, ?_, ?_⟩
      · rw [hrep r r1 r2.1, hidx, r4]
      · rw [hidx, r4, resized_length, hK]
        exact List.idxOf_lt_length_iff.mpr r5)
    refine ⟨out', ?_, ?_, ?_⟩
    · unfold Trees.nodes
      rw [hnv]
      exact o1
    · rw [o2, resized_length, hK]
    · intro j r hj
      have hjl := (List.getElem?_eq_some_iff.mp hj).1
      rw [o3 j _ (resized_get [] out m.numberOfRoots j (by rw [hK]; exact hjl))]
      congr 2
      refine List.filter_congr ?_
      intro i hi
      rw [List.mem_range] at hi
      have hjr : (rootList p.numLabels.length par).idxOf r = j := by
        obtain ⟨h1, h2⟩ := List.getElem?_eq_some_iff.mp hj
        rw [← h2]
        exact (List.nodup_range.filter _).idxOf_getElem j h1
      rw [decide_eq_decide, hnv]
      by_cases hpi : par i = p.numLabels.length
      · refine ⟨fun h => absurd hpi h.1, fun h => ?_⟩
        have : m.treeOfVariable i = some p.numLabels.length := by
          unfold Trees.treeOfVariable
          rw [hpar i hi]
          simp only
          rw [hnv, if_pos hpi]
        rw [this] at h
        have hrn := List.mem_range.mp (List.mem_filter.mp (List.mem_of_getElem? hj)).1
        have := Option.some.inj h
        omega
      · obtain ⟨r', r1, r2, r3, r4, r5⟩ := htree i hi hpi
        rw [hidx, r4, r3]
        simp only [ne_eq, hpi, not_false_iff, true_and, Option.some.injEq]
        constructor
        · intro h'
          have h1 := List.getElem?_idxOf r5
          rw [h', hj] at h1
          exact (Option.some.inj h1).symm
        · rintro rfl
          exact hjr

/-! ### models without cycles -/

theorem no_edge {G : SimpleGraph Nat} (hG : G.IsAcyclic) {n : Nat} (R : Set Nat) (hR : ∀ v ∈ R, v < n) (h1 : ∀ v ∈ R, ¬ ∃! w, G.Adj v w ∧ w ∈ R) {a b : Nat} (ha : a ∈ R) (hb : b ∈ R) : ¬ G.Adj a b := by
  classical
  intro hab
  have hfin : Finite R := Set.Finite.subset (Set.finite_lt_nat n) hR
  have hac := hG.induce R
  have hadj : (G.induce R).Adj ⟨a, ha⟩ ⟨b, hb⟩ := hab
  obtain ⟨c, hc⟩ : ∃ c, c = (G.induce R).connectedComponentMk ⟨a, ha⟩ := ⟨_, rfl⟩
  have hT := hac.isTree_connectedComponent c
  have hca : (⟨a, ha⟩ : R) ∈ c := by rw [hc]; exact SimpleGraph.ConnectedComponent.connectedComponentMk_mem
  have hcb : (⟨b, hb⟩ : R) ∈ c := c.mem_supp_of_adj_mem_supp hca hadj
  have hfc : Finite c := Subtype.finite
  have := Fintype.ofFinite c
  have hnt : Nontrivial c := ⟨⟨⟨⟨a, ha⟩, hca⟩, ⟨⟨b, hb⟩, hcb⟩, fun h => hadj.ne (Subtype.mk.inj h)⟩⟩
  obtain ⟨v, hv⟩ := hT.exists_vert_degree_one_of_nontrivial
  rw [SimpleGraph.degree_eq_one_iff_existsUnique_adj] at hv
  obtain ⟨w, hw, hu⟩ := hv
  refine h1 v.1.1 v.1.2 ⟨w.1.1, ⟨hw, w.1.2⟩, ?_⟩
  rintro y ⟨hy, hyR⟩
  have hyadj : (G.induce R).Adj v.1 ⟨y, hyR⟩ := hy
  have hyc : (⟨y, hyR⟩ : R) ∈ c := c.mem_supp_of_adj_mem_supp v.2 hyadj
  have := hu ⟨⟨y, hyR⟩, hyc⟩ hyadj
  rw [← this]

theorem isRootOf_unique {par : Nat → Nat} {v r r' : Nat} (h : IsRootOf par v r) (h' : IsRootOf par v r') : r = r' := by
  obtain ⟨h1, k, h2⟩ := h
  obtain ⟨h1', k', h2'⟩ := h'
  have hfix : ∀ j r, par r = r → par^[j] r = r := fun j r hr => Function.iterate_fixed hr j
  rcases Nat.le_total k k' with hk | hk
  · obtain ⟨d, rfl⟩ := Nat.exists_eq_add_of_le' hk
    rw [Function.iterate_add_apply, h2, hfix _ _ h1] at h2'
    exact h2'
  · obtain ⟨d, rfl⟩ := Nat.exists_eq_add_of_le' hk
    rw [Function.iterate_add_apply, h2', hfix _ _ h1'] at h2
    exact h2.symm

/-- C89: in a model without cycles, the trees are the connected components with more than one variable: treeOfVariable gives the number of variables exactly for the variables
without neighbours, and the same root for two variables (the first one with a neighbour) exactly if they are connected. -/
theorem C89_forest {gm : GM V} {p : Problem V} (hb : BuiltModel gm p) (hac : p.simpleGraph.IsAcyclic) :
    ∃ m, construct gm = some m ∧ (∀ i, i < p.numLabels.length → (m.treeOfVariable i = some p.numLabels.length ↔ ∀ w, p.adjacent i w = false)) ∧
      ∀ i j, i < p.numLabels.length → j < p.numLabels.length → (∃ w, p.adjacent i w = true) → (m.treeOfVariable i = m.treeOfVariable j ↔ p.simpleGraph.Reachable i j) := by
  obtain ⟨m, par, e1, ht, _, e2, e3, _⟩ := C89_trees hb
  obtain ⟨_, _, ha⟩ := adj_spec hb.represents
  have hr := ha.range
  generalize hn : p.numLabels.length = n at *
  have hout : ∀ i, i < n → par i = n → m.treeOfVariable i = some n := fun i hi h => (e2 i hi h).1
  have hin : ∀ i, i < n → par i ≠ n → ∃ r, r < n ∧ IsRootOf par i r ∧ m.treeOfVariable i = some r := by
    intro i hi h
    obtain ⟨r, _, a, b, c, _⟩ := e3 i hi h
    exact ⟨r, a, b, c⟩
  have hno : ∀ v w, v < n → w < n → (par v = v ∨ par v = n) → (par w = w ∨ par w = n) → ¬ p.adjacent v w = true := by
    intro v w hv hw h1 h2
    refine no_edge hac {v | v < n ∧ (par v = v ∨ par v = n)} (fun v hv => hv.1) ?_ ⟨hv, h1⟩ ⟨hw, h2⟩
    rintro u ⟨hu, hu'⟩ ⟨x, ⟨x1, x2⟩, x3⟩
    refine ht.maximal u (by rw [hn]; exact hu) (by rw [hn]; exact hu') ⟨x, ⟨x1, by rw [hn]; exact x2.2⟩, ?_⟩
    rintro y ⟨y1, y2⟩
    rw [hn] at y2
    exact x3 y ⟨y1, (hr _ _ y1).2, y2⟩
  have hchild : ∀ u v, u < n → v < n → u ≠ v → par u = v → par v ≠ n := by
    intro u v hu hv huv hpu hpv
    have := (ht.root v (by rw [hn]; exact hv) (by rw [hn]; exact Or.inr hpv)).mpr ⟨u, by rw [hn]; exact hu, huv, hpu⟩
    omega
  have hedge : ∀ v w, p.adjacent v w = true → w = par v ∨ par w = v := by
    intro v w hvw
    obtain ⟨hv, hw⟩ := hr v w hvw
    by_cases h1 : par v = v ∨ par v = n
    · by_cases h2 : par w = w ∨ par w = n
      · exact absurd hvw (hno v w hv hw h1 h2)
      · rw [not_or] at h2
        rcases ht.edges w v (by rw [hn]; exact hw) (by rw [hn]; exact h2.2) h2.1 (by rw [adjacent_symm]; exact hvw) with h | h
        · exact Or.inr h.symm
        · exact Or.inl h.symm
    · rw [not_or] at h1
      exact ht.edges v w (by rw [hn]; exact hv) (by rw [hn]; exact h1.2) h1.1 hvw
  have hiso : ∀ i, i < n → (par i = n ↔ ∀ w, p.adjacent i w = false) := by
    intro i hi
    constructor
    · intro hpi w
      by_contra hw
      rw [Bool.not_eq_false] at hw
      obtain ⟨_, hwn⟩ := hr i w hw
      rcases hedge i w hw with h | h
      · omega
      · exact hchild w i hwn hi (adjacent_ne hw).symm h hpi
    · intro hall
      by_contra hpi
      by_cases hpp : par i = i
      · obtain ⟨u, hu, hui, hpu⟩ := (ht.root i (by rw [hn]; exact hi) (Or.inl hpp)).mp hpp
        rw [hn] at hu
        have := ht.adjacent u (by rw [hn]; exact hu) (by rw [hn]; omega) (by omega)
        rw [hpu, adjacent_symm, hall] at this
        exact absurd this (by simp)
      · have := ht.adjacent i (by rw [hn]; exact hi) (by rw [hn]; exact hpi) hpp
        rw [hall] at this
        exact absurd this (by simp)
  have hstep : ∀ v w r, p.adjacent v w = true → IsRootOf par v r → IsRootOf par w r := by
    rintro v w r hvw ⟨h1, k, h2⟩
    rcases hedge v w hvw with h | h
    · refine ⟨h1, k, ?_⟩
      rw [h, ← Function.iterate_succ_apply, Function.iterate_succ_apply', h2, h1]
    · refine ⟨h1, k + 1, ?_⟩
      rw [Function.iterate_succ_apply, h, h2]
  have hreach : ∀ k v, v < n → par v ≠ n → p.simpleGraph.Reachable v (par^[k] v) := by
    intro k
    induction k with
    | zero => intro v _ _; exact SimpleGraph.Reachable.refl _
    | succ k ih =>
      intro v hv hpv
      rw [Function.iterate_succ_apply]
      by_cases hpp : par v = v
      · rw [hpp]; exact ih v hv hpv
      · have hadj := ht.adjacent v (by rw [hn]; exact hv) (by rw [hn]; exact hpv) hpp
        have hpn := (hr _ _ hadj).2
        have h1 : p.simpleGraph.Adj v (par v) := hadj
        exact h1.reachable.trans (ih (par v) hpn (hchild v (par v) hv hpn (fun h => hpp h.symm) rfl))
  refine ⟨m, e1, ?_, ?_⟩
  · intro i hi
    rw [← hiso i hi]
    constructor
    · intro h
      by_contra hpi
      obtain ⟨r, r1, _, r2⟩ := hin i hi hpi
      rw [r2] at h
      have := Option.some.inj h
      omega
    · exact hout i hi
  · rintro i j hi hj ⟨w, hw⟩
    have hpi : par i ≠ n := fun h => by rw [(hiso i hi).mp h w] at hw; exact absurd hw (by simp)
    obtain ⟨r, r1, r2, r3⟩ := hin i hi hpi
    rw [r3]
    constructor
    · intro h
      have hpj : par j ≠ n := by
        intro hpj
        rw [hout j hj hpj] at h
        have := Option.some.inj h
        omega
      obtain ⟨r', s1, s2, s3⟩ := hin j hj hpj
      rw [s3] at h
      obtain rfl := Option.some.inj h
      obtain ⟨_, k, rfl⟩ := r2
      obtain ⟨_, k', hk'⟩ := s2
      have := hreach k' j hj hpj
      rw [hk'] at this
      exact (hreach k i hi hpi).trans this.symm
    · rintro ⟨walk⟩
      have key : ∀ (a b : Nat) (walk : p.simpleGraph.Walk a b), par a ≠ n → IsRootOf par a r → par b ≠ n ∧ IsRootOf par b r := by
        intro a b walk
        induction walk with
        | nil => exact fun h1 h2 => ⟨h1, h2⟩
        | @cons a b c hab _ ih =>
          intro _ h2
          have hab' : p.adjacent a b = true := hab
          refine ih ?_ (hstep a b r hab' h2)
          intro h
          have := (hiso b (hr _ _ hab').2).mp h a
          rw [adjacent_symm, hab'] at this
          exact absurd this (by simp)
      obtain ⟨hpj, hrj⟩ := key i j walk hpi r2
      obtain ⟨r', _, s2, s3⟩ := hin j hj hpj
      rw [s3, isRootOf_unique hrj s2]

/-! ### examples -/

/-- A table of ones for two binary variables. -/
def ones : Table Nat := ⟨[2, 2], fun _ => 1⟩

/-- A triangle 0, 1, 2 with a path 2 - 3 - 4 attached to it, an edge 5 - 6, and the variable 7 alone. -/
def exampleOps : List (BuildOp Nat) :=
  List.replicate 8 (.addVariable 2) ++ [.addFunction 0 ones, .addFactor 0 [0, 1], .addFactor 0 [1, 2], .addFactor 0 [0, 2], .addFactor 0 [2, 3], .addFactor 0 [3, 4], .addFactor 0 [5, 6]]

/-- A path 0 - 1 - 2 and the variable 3 alone. -/
def pathOps : List (BuildOp Nat) := List.replicate 4 (.addVariable 2) ++ [.addFunction 0 ones, .addFactor 0 [0, 1], .addFactor 0 [1, 2]]

/-- The model after a history. -/
def gmAfter (ops : List (BuildOp Nat)) : GM Nat :=
  match (Client.init 1).run (fun _ _ => false) ops with
  | .ok _ c => c.gm
  | _ => GM.empty 1

theorem example_built : BuiltModel (gmAfter exampleOps) (builtAfter exampleOps).problem := by
  refine ⟨1, fun _ _ => false, exampleOps, _, by intro f g h; simp at h, ?_, rfl, rfl, rfl⟩
  simp [exampleOps, ones, List.replicate, ValidHistory, BuildOp.Valid, BuildOp.apply, Built.empty, restrict]

/-- The answers for the example: two trees, with the roots 2 and 5. -/
example : (construct (gmAfter exampleOps)).map (fun m => ((List.range 8).map m.parentOfVariable, (List.range 8).map m.treeOfVariable, m.rootsOf [], m.nodes [])) =
    some ([some 8, some 8, some 2, some 2, some 3, some 5, some 5, some 8], [some 8, some 8, some 2, some 2, some 2, some 5, some 5, some 8], some [2, 5], some [[2, 3, 4], [5, 6]]) := by
  rfl

theorem path_built : BuiltModel (gmAfter pathOps) (builtAfter pathOps).problem := by
  refine ⟨1, fun _ _ => false, pathOps, _, by intro f g h; simp at h, ?_, rfl, rfl, rfl⟩
  simp [pathOps, ones, List.replicate, ValidHistory, BuildOp.Valid, BuildOp.apply, Built.empty, restrict]

/-- The hypotheses of `C89_forest` are met. -/
example : BuiltModel (gmAfter pathOps) (builtAfter pathOps).problem ∧ (builtAfter pathOps).problem.simpleGraph.IsAcyclic := by
  refine ⟨path_built, ?_⟩
  have h1 : (⊥ ⊔ SimpleGraph.edge 0 1 : SimpleGraph Nat).IsAcyclic :=
    SimpleGraph.IsAcyclic.sup_edge_of_not_reachable (by rw [SimpleGraph.reachable_bot]; omega) SimpleGraph.isAcyclic_bot
  have h2 : (⊥ ⊔ SimpleGraph.edge 0 1 ⊔ SimpleGraph.edge 1 2 : SimpleGraph Nat).IsAcyclic := by
    refine SimpleGraph.IsAcyclic.sup_edge_of_not_reachable ?_ h1
    rintro ⟨w⟩
    have key : ∀ (a b : Nat), (⊥ ⊔ SimpleGraph.edge 0 1 : SimpleGraph Nat).Walk a b → a ≤ 1 → b ≤ 1 := by
      intro a b w
      induction w with
      | nil => exact id
      | cons h _ ih =>
        intro _
        apply ih
        simp [SimpleGraph.edge_adj] at h
        omega
    have := key 1 2 w (by omega)
    omega
  refine h2.anti ?_
  intro v w hvw
  have hvw' : (builtAfter pathOps).problem.adjacent v w = true := hvw
  simp [Problem.adjacent, pathOps, List.replicate, builtAfter, BuildOp.apply, Built.empty, Built.problem, ones] at hvw'
  simp [SimpleGraph.edge_adj]
  omega

/-- C89 is violated by nodes() if the vector given is not empty: it is resized but not cleared, so a second call with the same vector lists every variable twice (roots()
overwrites the vector). -/
theorem C89_violated_nodes : ∃ (gm : GM Nat) (p : Problem Nat) (m : Trees) (out : List (List Nat)), BuiltModel gm p ∧ construct gm = some m ∧ m.nodes [] = some out ∧
    out = [[0, 1, 2]] ∧ m.nodes out = some [[0, 1, 2, 0, 1, 2]] := by
  refine ⟨gmAfter pathOps, _, ⟨4, [(0, 0)], [0, 0, 1, 4], [true, false, false, false], 1⟩, [[0, 1, 2]], path_built, ?_, ?_, rfl, ?_⟩ <;> rfl

end ModelTrees
end OpenGM
