import Mathlib.Data.List.Perm.Subperm
import Verif.Model.FactorGraph
import Verif.Lemmas.GraphicalModel
/-
Lemmas on the structural queries of FactorGraph.
-/
namespace OpenGM
open Spec

/-- The views of a factor graph are consistent: variables of factors strictly increasing and in range, and the factors of
a variable are exactly those that contain it, in increasing order. -/
structure FG.Exact (g : FG) : Prop where
  adjLen : g.adj.length = g.numVars
  sorted : ∀ s ∈ g.scopes, s.Pairwise (· < ·)
  range : ∀ s ∈ g.scopes, ∀ v ∈ s, v < g.numVars
  adj : ∀ v, v < g.numVars → ∃ l, g.adj[v]? = some l ∧ l.Pairwise (· < ·) ∧
    ∀ f : Nat, f ∈ l ↔ ∃ s : List Nat, g.scopes[f]? = some s ∧ v ∈ s

theorem factorGraph_exact {V : Type} {gm : GM V} {p : Problem V} (h : Represents gm p) :
    gm.factorGraph.Exact ∧ gm.factorGraph.scopes = p.terms.map Term.vars ∧
      gm.factorGraph.numVars = p.numLabels.length := by
  have hs : gm.factorGraph.scopes = p.terms.map Term.vars := by
    show gm.factors.map gm.scope = _
    have := h.factors
    revert this
    generalize gm.factors = fs
    generalize p.terms = ts
    intro h
    induction h with
    | nil => rfl
    | cons hm _ ih => simp [ih, hm.scope]
  have hmem : ∀ s ∈ gm.factorGraph.scopes, s.Pairwise (· < ·) ∧ ∀ v ∈ s, v < gm.numLabels.length := by
    rw [hs]
    intro s hs'
    obtain ⟨t, ht, rfl⟩ := List.mem_map.mp hs'
    obtain ⟨i, hi, rfl⟩ := List.getElem_of_mem ht
    have hlen := h.factors.length_eq
    have hm := h.factors.get (i := i) (by omega) hi
    exact ⟨hm.sorted, hm.range⟩
  refine ⟨⟨h.adjLen, fun s hs => (hmem s hs).1, fun s hs => (hmem s hs).2, ?_⟩, hs, ?_⟩
  · intro v hv
    refine ⟨_, h.adj v hv, List.Pairwise.filter _ List.pairwise_lt_range, ?_⟩
    intro f
    rw [List.mem_filter, List.mem_range, hs]
    unfold mentions
    rw [List.getElem?_map]
    cases ht : p.terms[f]? with
    | none => simp
    | some t =>
      have := (List.getElem?_eq_some_iff.mp ht).1
      simp [this]
  · show gm.numLabels.length = _
    rw [h.labels]

namespace FG

theorem binarySearch_spec (l : List Nat) (v : Nat) (hs : l.Pairwise (· < ·)) :
    binarySearch l v = true ↔ v ∈ l := by
  induction l with
  | nil => simp [binarySearch]
  | cons a l ih =>
    rw [List.pairwise_cons] at hs
    have := ih hs.2
    unfold binarySearch RandomAccessSet.lowerBound at *
    rw [List.takeWhile_cons]
    by_cases h : natLess a v = true
    · simp only [h, if_true, List.length_cons, List.getElem?_cons_succ]
      have hne : v ≠ a := by rintro rfl; simp [natLess] at h
      simp only [List.mem_cons, hne, false_or]
      exact this
    · simp only [h, Bool.false_eq_true, if_false, List.length_nil, List.getElem?_cons_zero]
      simp only [natLess, decide_eq_true_eq] at h
      simp only [natLess, List.mem_cons]
      constructor
      · intro h2
        left; simp at h2; omega
      · rintro (rfl | h2)
        · simp
        · have := hs.1 v h2; omega

theorem mergeWalk_spec (a b : List Nat) (ha : a.Pairwise (· < ·)) (hb : b.Pairwise (· < ·)) :
    mergeWalk a b = true ↔ ∃ x, x ∈ a ∧ x ∈ b := by
  fun_induction mergeWalk a b with
  | case1 => simp
  | case2 => simp
  | case3 a as b bs hlt ih =>
    rw [ih (List.pairwise_cons.mp ha).2 hb]
    have hb' := (List.pairwise_cons.mp hb).1
    constructor
    · rintro ⟨x, h1, h2⟩; exact ⟨x, by simp [h1], h2⟩
    · rintro ⟨x, h1, h2⟩
      refine ⟨x, ?_, h2⟩
      rcases List.mem_cons.mp h1 with rfl | h1
      · rcases List.mem_cons.mp h2 with rfl | h2
        · omega
        · have := hb' x h2; omega
      · exact h1
  | case4 as b bs hlt =>
    simp only [true_iff]
    exact ⟨b, by simp, by simp⟩
  | case5 a as b bs hlt hne ih =>
    rw [ih ha (List.pairwise_cons.mp hb).2]
    have ha' := (List.pairwise_cons.mp ha).1
    constructor
    · rintro ⟨x, h1, h2⟩; exact ⟨x, h1, by simp [h2]⟩
    · rintro ⟨x, h1, h2⟩
      refine ⟨x, h1, ?_⟩
      rcases List.mem_cons.mp h2 with rfl | h2
      · rcases List.mem_cons.mp h1 with rfl | h1
        · omega
        · have := ha' x h1; omega
      · exact h2

theorem mem_pairs (s : List Nat) (hs : s.Pairwise (· < ·)) (x y : Nat) :
    (x, y) ∈ pairs s ↔ x ∈ s ∧ y ∈ s ∧ x < y := by
  induction s with
  | nil => simp [pairs]
  | cons a s ih =>
    rw [List.pairwise_cons] at hs
    simp only [pairs, List.mem_append, List.mem_map, ih hs.2, List.mem_cons, Prod.mk.injEq]
    constructor
    · rintro (⟨z, hz, rfl, rfl⟩ | ⟨h1, h2, h3⟩)
      · exact ⟨Or.inl rfl, Or.inr hz, hs.1 _ hz⟩
      · exact ⟨Or.inr h1, Or.inr h2, h3⟩
    · rintro ⟨h1 | h1, h2 | h2, h3⟩
      · omega
      · exact Or.inl ⟨y, h2, h1.symm, rfl⟩
      · have := hs.1 _ h1; omega
      · exact Or.inr ⟨h1, h2, h3⟩

/-- Invariant of the adjacency list after the pairs `P`. -/
def ListInv (n : Nat) (out : List (List Nat)) (P : List (Nat × Nat)) : Prop :=
  out.length = n ∧ ∀ v, v < n → ∃ l, out[v]? = some l ∧ l.Pairwise (· < ·) ∧ ∀ w, w ∈ l ↔ (v, w) ∈ P ∨ (w, v) ∈ P

theorem insertAt_spec (out : List (List Nat)) (i x : Nat) (hi : i < out.length)
    (hs : ∀ v : Nat, ∀ l : List Nat, out[v]? = some l → l.Pairwise (· < ·)) :
    ∃ out', insertAt out i x = some out' ∧ out'.length = out.length ∧
      ∀ v, v < out.length → ∃ l l' : List Nat, out[v]? = some l ∧ out'[v]? = some l' ∧ l'.Pairwise (· < ·) ∧
        ∀ w, w ∈ l' ↔ w ∈ l ∨ (v = i ∧ w = x) := by
  refine ⟨out.set i (RandomAccessSet.insert natLess out[i] x).1, ?_, by simp, ?_⟩
  · simp [insertAt, List.getElem?_eq_getElem hi]
  · intro v hv
    have hsv := hs v _ (List.getElem?_eq_getElem hv)
    by_cases e : v = i
    · subst e
      refine ⟨out[v], _, List.getElem?_eq_getElem hv, List.getElem?_set_self hv, ?_, ?_⟩
      · rw [natLess_eq]; exact RandomAccessSet.sorted_insert _ _ hsv
      · intro w
        rw [natLess_eq, RandomAccessSet.mem_insert _ _ _ hsv]
        tauto
    · refine ⟨out[v], out[v], List.getElem?_eq_getElem hv, ?_, hsv, ?_⟩
      · rw [List.getElem?_set_ne (fun h => e h.symm)]; exact List.getElem?_eq_getElem hv
      · intro w; simp [e]

theorem listInv_step {n : Nat} {out : List (List Nat)} {P : List (Nat × Nat)} (h : ListInv n out P) (p : Nat × Nat)
    (h1 : p.1 < n) (h2 : p.2 < n) :
    ∃ out', (insertAt out p.1 p.2).bind (fun m' => insertAt m' p.2 p.1) = some out' ∧ ListInv n out' (P ++ [p]) := by
  have hl := h.1
  have srt : ∀ v : Nat, ∀ l : List Nat, out[v]? = some l → l.Pairwise (· < ·) := by
    intro v l hv
    have hlt := (List.getElem?_eq_some_iff.mp hv).1
    obtain ⟨l', e1, e2, _⟩ := h.2 v (by omega)
    rw [hv] at e1
    obtain rfl := Option.some.inj e1
    exact e2
  obtain ⟨o1, a1, a2, a3⟩ := insertAt_spec out p.1 p.2 (by omega) srt
  obtain ⟨o2, b1, b2, b3⟩ := insertAt_spec o1 p.2 p.1 (by omega) (by
    intro v l hv
    have hlt := (List.getElem?_eq_some_iff.mp hv).1
    obtain ⟨l1, l2, _, e2, e3, _⟩ := a3 v (by omega)
    rw [hv] at e2
    obtain rfl := Option.some.inj e2
    exact e3)
  refine ⟨o2, by simp [a1, b1], by omega, ?_⟩
  intro v hv
  obtain ⟨l0, c1, c2, c3⟩ := h.2 v hv
  obtain ⟨l1, l2, d1, d2, d3, d4⟩ := a3 v (by omega)
  obtain ⟨l3, l4, f1, f2, f3, f4⟩ := b3 v (by omega)
  rw [c1] at d1
  obtain rfl := Option.some.inj d1
  rw [d2] at f1
  obtain rfl := Option.some.inj f1
  refine ⟨l4, f2, f3, ?_⟩
  intro w
  rw [f4, d4, c3]
  obtain ⟨p1, p2⟩ := p
  simp only [List.mem_append, List.mem_singleton, Prod.mk.injEq]
  tauto

theorem listInv_fold {n : Nat} (ps : List (Nat × Nat)) (hp : ∀ p ∈ ps, p.1 < n ∧ p.2 < n) :
    ∀ (out : List (List Nat)) (P : List (Nat × Nat)), ListInv n out P →
      ∃ out', ps.foldlM (fun m p => (insertAt m p.1 p.2).bind (fun m' => insertAt m' p.2 p.1)) out = some out' ∧
        ListInv n out' (P ++ ps) := by
  induction ps with
  | nil => intro out P h; exact ⟨out, rfl, by simpa using h⟩
  | cons p ps ih =>
    intro out P h
    obtain ⟨h1, h2⟩ := hp p (by simp)
    obtain ⟨o1, a1, a2⟩ := listInv_step h p h1 h2
    obtain ⟨o2, b1, b2⟩ := ih (fun q hq => hp q (by simp [hq])) o1 _ a2
    refine ⟨o2, ?_, by simpa using b2⟩
    rw [List.foldlM_cons, a1]
    exact b1

theorem pairs_range {n : Nat} (s : List Nat) (hs : s.Pairwise (· < ·)) (hr : ∀ v ∈ s, v < n) :
    ∀ p ∈ pairs s, p.1 < n ∧ p.2 < n := by
  rintro ⟨x, y⟩ hp
  rw [mem_pairs s hs] at hp
  exact ⟨hr _ hp.1, hr _ hp.2.1⟩

theorem listInv_scopes {n : Nat} (ss : List (List Nat)) (hs : ∀ s ∈ ss, s.Pairwise (· < ·))
    (hr : ∀ s ∈ ss, ∀ v ∈ s, v < n) :
    ∀ (out : List (List Nat)) (P : List (Nat × Nat)), ListInv n out P →
      ∃ out', ss.foldlM (fun m s => (pairs s).foldlM
          (fun m p => (insertAt m p.1 p.2).bind (fun m' => insertAt m' p.2 p.1)) m) out = some out' ∧
        ListInv n out' (P ++ ss.flatMap pairs) := by
  induction ss with
  | nil => intro out P h; exact ⟨out, rfl, by simpa using h⟩
  | cons s ss ih =>
    intro out P h
    obtain ⟨o1, a1, a2⟩ := listInv_fold (pairs s) (pairs_range s (hs s (by simp)) (hr s (by simp))) out P h
    obtain ⟨o2, b1, b2⟩ := ih (fun q hq => hs q (by simp [hq])) (fun q hq => hr q (by simp [hq])) o1 _ a2
    refine ⟨o2, ?_, by simpa using b2⟩
    rw [List.foldlM_cons, a1]
    exact b1

theorem mem_flatMap_pairs (g : FG) (h : g.Exact) (v w : Nat) :
    ((v, w) ∈ g.scopes.flatMap pairs ∨ (w, v) ∈ g.scopes.flatMap pairs) ↔ v ≠ w ∧ ∃ s ∈ g.scopes, v ∈ s ∧ w ∈ s := by
  simp only [List.mem_flatMap]
  constructor
  · rintro (⟨s, hs, hp⟩ | ⟨s, hs, hp⟩) <;> rw [mem_pairs s (h.sorted s hs)] at hp
    · exact ⟨by omega, s, hs, hp.1, hp.2.1⟩
    · exact ⟨by omega, s, hs, hp.2.1, hp.1⟩
  · rintro ⟨hne, s, hs, h1, h2⟩
    rcases Nat.lt_or_gt_of_ne hne with hlt | hlt
    · exact Or.inl ⟨s, hs, (mem_pairs s (h.sorted s hs) v w).mpr ⟨h1, h2, hlt⟩⟩
    · exact Or.inr ⟨s, hs, (mem_pairs s (h.sorted s hs) w v).mpr ⟨h2, h1, hlt⟩⟩

/-! ### matrix -/

def MatInv (n : Nat) (m : List (List Bool)) (P : List (Nat × Nat)) : Prop :=
  m.length = n ∧ ∀ v, v < n → ∃ row, m[v]? = some row ∧ row.length = n ∧
    ∀ w, w < n → row[w]? = some (decide ((v, w) ∈ P ∨ (w, v) ∈ P))

theorem setTrue_spec (n : Nat) (m : List (List Bool)) (i j : Nat) (hl : m.length = n)
    (hrow : ∀ v, v < n → ∃ row : List Bool, m[v]? = some row ∧ row.length = n) (hi : i < n) (hj : j < n) :
    ∃ m', setTrue m i j = some m' ∧ m'.length = n ∧
      ∀ v, v < n → ∃ row row' : List Bool, m[v]? = some row ∧ m'[v]? = some row' ∧ row'.length = n ∧
        ∀ w, w < n → row'[w]? = if v = i ∧ w = j then some true else row[w]? := by
  obtain ⟨row, h1, h2⟩ := hrow i hi
  refine ⟨m.set i (row.set j true), by simp [setTrue, h1, setAt, h2, hj], by simp [hl], ?_⟩
  intro v hv
  by_cases e : v = i
  · subst e
    refine ⟨row, row.set j true, h1, by rw [List.getElem?_set_self (by omega)], by simp [h2], ?_⟩
    intro w hw
    by_cases e2 : w = j
    · subst e2; simp [h2, hw]
    · simp [e2, List.getElem?_set_ne (fun h => e2 h.symm)]
  · obtain ⟨r, h3, h4⟩ := hrow v hv
    refine ⟨r, r, h3, by rw [List.getElem?_set_ne (fun h => e h.symm)]; exact h3, h4, ?_⟩
    intro w hw; simp [e]

theorem matInv_step {n : Nat} {m : List (List Bool)} {P : List (Nat × Nat)} (h : MatInv n m P) (p : Nat × Nat)
    (h1 : p.1 < n) (h2 : p.2 < n) :
    ∃ m', (setTrue m p.1 p.2).bind (fun m' => setTrue m' p.2 p.1) = some m' ∧ MatInv n m' (P ++ [p]) := by
  obtain ⟨m1, a1, a2, a3⟩ := setTrue_spec n m p.1 p.2 h.1 (fun v hv => by
    obtain ⟨row, e1, e2, _⟩ := h.2 v hv; exact ⟨row, e1, e2⟩) h1 h2
  obtain ⟨m2, b1, b2, b3⟩ := setTrue_spec n m1 p.2 p.1 a2 (fun v hv => by
    obtain ⟨_, row', _, e2, e3, _⟩ := a3 v hv; exact ⟨row', e2, e3⟩) h2 h1
  refine ⟨m2, by simp [a1, b1], b2, ?_⟩
  intro v hv
  obtain ⟨l0, c1, c2, c3⟩ := h.2 v hv
  obtain ⟨l1, l2, d1, d2, d3, d4⟩ := a3 v hv
  obtain ⟨l3, l4, f1, f2, f3, f4⟩ := b3 v hv
  rw [c1] at d1
  obtain rfl := Option.some.inj d1
  rw [d2] at f1
  obtain rfl := Option.some.inj f1
  refine ⟨l4, f2, f3, ?_⟩
  intro w hw
  rw [f4 w hw, d4 w hw, c3 w hw]
  obtain ⟨p1, p2⟩ := p
  simp only [List.mem_append, List.mem_singleton, Prod.mk.injEq]
  by_cases e1 : v = p2 ∧ w = p1
  · simp [e1]
  · by_cases e2 : v = p1 ∧ w = p2
    · simp [e2]
    · simp only [e1, e2, if_false, or_false]
      congr 2
      have : ¬ (w = p1 ∧ v = p2) := fun h => e1 ⟨h.2, h.1⟩
      simp [this]

theorem matInv_fold {n : Nat} (ps : List (Nat × Nat)) (hp : ∀ p ∈ ps, p.1 < n ∧ p.2 < n) :
    ∀ (m : List (List Bool)) (P : List (Nat × Nat)), MatInv n m P →
      ∃ m', ps.foldlM (fun m p => (setTrue m p.1 p.2).bind (fun m' => setTrue m' p.2 p.1)) m = some m' ∧
        MatInv n m' (P ++ ps) := by
  induction ps with
  | nil => intro out P h; exact ⟨out, rfl, by simpa using h⟩
  | cons p ps ih =>
    intro out P h
    obtain ⟨h1, h2⟩ := hp p (by simp)
    obtain ⟨o1, a1, a2⟩ := matInv_step h p h1 h2
    obtain ⟨o2, b1, b2⟩ := ih (fun q hq => hp q (by simp [hq])) o1 _ a2
    refine ⟨o2, ?_, by simpa using b2⟩
    rw [List.foldlM_cons, a1]
    exact b1

theorem matInv_scopes {n : Nat} (ss : List (List Nat)) (hs : ∀ s ∈ ss, s.Pairwise (· < ·))
    (hr : ∀ s ∈ ss, ∀ v ∈ s, v < n) :
    ∀ (m : List (List Bool)) (P : List (Nat × Nat)), MatInv n m P →
      ∃ m', ss.foldlM (fun m s => (pairs s).foldlM
          (fun m p => (setTrue m p.1 p.2).bind (fun m' => setTrue m' p.2 p.1)) m) m = some m' ∧
        MatInv n m' (P ++ ss.flatMap pairs) := by
  induction ss with
  | nil => intro out P h; exact ⟨out, rfl, by simpa using h⟩
  | cons s ss ih =>
    intro out P h
    obtain ⟨o1, a1, a2⟩ := matInv_fold (pairs s) (pairs_range s (hs s (by simp)) (hr s (by simp))) out P h
    obtain ⟨o2, b1, b2⟩ := ih (fun q hq => hs q (by simp [hq])) (fun q hq => hr q (by simp [hq])) o1 _ a2
    refine ⟨o2, ?_, by simpa using b2⟩
    rw [List.foldlM_cons, a1]
    exact b1

/-! ### factor adjacency list (as the code computes it) -/

theorem loopFF_spec (f : Nat) (fs : List Nat) : ∀ (out : List (List Nat)) (l : List Nat), out[f]? = some l →
    l.Pairwise (· < ·) →
    ∃ out' l', factorAdjacencyList.loopFF f fs out = some out' ∧ out'.length = out.length ∧ out'[f]? = some l' ∧
      l'.Pairwise (· < ·) ∧ (∀ x, x ∈ l' ↔ x ∈ l ∨ (x ∈ fs ∧ x ≠ f)) ∧ ∀ v, v ≠ f → out'[v]? = out[v]? := by
  induction fs with
  | nil => intro out l h hs; exact ⟨out, l, rfl, rfl, h, hs, by simp, by simp⟩
  | cons a fs ih =>
    intro out l h hs
    unfold factorAdjacencyList.loopFF
    by_cases e : f = a
    · subst e
      simp only [ne_eq, not_true_eq_false, if_false]
      obtain ⟨out', l', h1, h2, h3, h4, h5, h6⟩ := ih out l h hs
      refine ⟨out', l', h1, h2, h3, h4, ?_, h6⟩
      intro x; rw [h5]; simp only [List.mem_cons]; tauto
    · have hlt := (List.getElem?_eq_some_iff.mp h).1
      have hset : (out.set f (RandomAccessSet.insert natLess l a).1)[f]? = some (RandomAccessSet.insert natLess l a).1 :=
        List.getElem?_set_self hlt
      obtain ⟨out', l', h1, h2, h3, h4, h5, h6⟩ := ih _ _ hset (by
        rw [natLess_eq]; exact RandomAccessSet.sorted_insert _ _ hs)
      refine ⟨out', l', ?_, by simpa using h2, h3, h4, ?_, ?_⟩
      · simp only [ne_eq, e, not_false_eq_true, if_true, insertAt, h]
        exact h1
      · intro x
        rw [h5, natLess_eq, RandomAccessSet.mem_insert _ _ _ hs, List.mem_cons]
        constructor
        · rintro ((rfl | h) | h)
          · exact Or.inr ⟨Or.inl rfl, fun h => e h.symm⟩
          · exact Or.inl h
          · exact Or.inr ⟨Or.inr h.1, h.2⟩
        · rintro (h | ⟨rfl | h, h'⟩)
          · exact Or.inl (Or.inr h)
          · exact Or.inl (Or.inl rfl)
          · exact Or.inr ⟨h, h'⟩
      · intro v hv
        rw [h6 v hv, List.getElem?_set_ne (fun h => hv h.symm)]

theorem loopV_spec (g : FG) (h : g.Exact) (f : Nat) (vs : List Nat) (hvs : ∀ v ∈ vs, v < g.numVars) :
    ∀ (out : List (List Nat)) (l : List Nat), out[f]? = some l → l.Pairwise (· < ·) →
    ∃ out' l', factorAdjacencyList.loopV g f vs out = some out' ∧ out'.length = out.length ∧ out'[f]? = some l' ∧
      l'.Pairwise (· < ·) ∧
      (∀ x, x ∈ l' ↔ x ∈ l ∨ (x ≠ f ∧ ∃ v ∈ vs, ∃ s : List Nat, g.scopes[x]? = some s ∧ v ∈ s)) ∧
      ∀ v, v ≠ f → out'[v]? = out[v]? := by
  induction vs with
  | nil => intro out l h hs; exact ⟨out, l, rfl, rfl, h, hs, by simp, by simp⟩
  | cons a vs ih =>
    intro out l hl hs
    obtain ⟨fs, e1, _, e3⟩ := h.adj a (hvs a (by simp))
    obtain ⟨o1, l1, a1, a2, a3, a4, a5, a6⟩ := loopFF_spec f fs out l hl hs
    obtain ⟨o2, l2, b1, b2, b3, b4, b5, b6⟩ := ih (fun v hv => hvs v (by simp [hv])) o1 l1 a3 a4
    refine ⟨o2, l2, ?_, by omega, b3, b4, ?_, ?_⟩
    · unfold factorAdjacencyList.loopV
      simp only [e1, a1]; exact b1
    · intro x
      rw [b5, a5, e3]
      simp only [List.mem_cons, exists_eq_or_imp]
      by_cases hx : x = f <;> simp [hx, or_assoc]
    · intro v hv; rw [b6 v hv, a6 v hv]

theorem loopF_spec (g : FG) (h : g.Exact) (rest : List (List Nat)) : ∀ (done : List (List Nat)) (out : List (List Nat)),
    g.scopes = done ++ rest → out.length = g.scopes.length →
    (∀ f : Nat, f < g.scopes.length → ∃ l, out[f]? = some l ∧ l.Pairwise (· < ·) ∧
      ∀ x, x ∈ l ↔ f < done.length ∧ x ≠ f ∧ ∃ sf : List Nat, g.scopes[f]? = some sf ∧
        ∃ v, v < sf.length ∧ ∃ s : List Nat, g.scopes[x]? = some s ∧ v ∈ s) →
    ∃ out', factorAdjacencyList.loopF g rest done.length out = some out' ∧ out'.length = g.scopes.length ∧
      ∀ f : Nat, f < g.scopes.length → ∃ l, out'[f]? = some l ∧ l.Pairwise (· < ·) ∧
        ∀ x, x ∈ l ↔ x ≠ f ∧ ∃ sf : List Nat, g.scopes[f]? = some sf ∧
          ∃ v, v < sf.length ∧ ∃ s : List Nat, g.scopes[x]? = some s ∧ v ∈ s := by
  induction rest with
  | nil =>
    intro done out hd hl hinv
    refine ⟨out, rfl, hl, ?_⟩
    intro f hf
    obtain ⟨l, h1, h2, h3⟩ := hinv f hf
    refine ⟨l, h1, h2, ?_⟩
    intro x; rw [h3]
    have : f < done.length := by rw [hd] at hf; simpa using hf
    simp [this]
  | cons sf rest ih =>
    intro done out hd hl hinv
    have hdl : done.length < g.scopes.length := by rw [hd]; simp
    have hsf : g.scopes[done.length]? = some sf := by rw [hd]; simp
    have hsm : sf ∈ g.scopes := List.mem_of_getElem? hsf
    have hlen : sf.length ≤ g.numVars := by
      have hnd : sf.Nodup := (h.sorted sf hsm).imp (fun h => Nat.ne_of_lt h)
      have : sf ⊆ List.range g.numVars := fun v hv => List.mem_range.mpr (h.range sf hsm v hv)
      have := (List.subperm_of_subset hnd this).length_le
      simpa using this
    obtain ⟨l, h1, h2, h3⟩ := hinv done.length hdl
    obtain ⟨o1, l1, a1, a2, a3, a4, a5, a6⟩ := loopV_spec g h done.length (List.range sf.length)
      (fun v hv => lt_of_lt_of_le (List.mem_range.mp hv) hlen) out l h1 h2
    obtain ⟨o2, b1, b2, b3⟩ := ih (done ++ [sf]) o1 (by simp [hd]) (by omega) (by
      intro f hf
      by_cases e : f = done.length
      · subst e
        refine ⟨l1, a3, a4, ?_⟩
        intro x
        rw [a5, h3]
        simp only [List.mem_range, hsf, Option.some.injEq, exists_eq_left', List.length_append, List.length_singleton]
        constructor
        · rintro (h | h)
          · omega
          · exact ⟨by omega, h⟩
        · rintro ⟨_, h⟩; exact Or.inr h
      · obtain ⟨l', c1, c2, c3⟩ := hinv f hf
        refine ⟨l', by rw [a6 f e]; exact c1, c2, ?_⟩
        intro x; rw [c3]
        simp only [List.length_append, List.length_singleton]
        constructor
        · rintro ⟨q1, q2⟩; exact ⟨by omega, q2⟩
        · rintro ⟨q1, q2⟩; exact ⟨by omega, q2⟩)
    refine ⟨o2, ?_, b2, b3⟩
    unfold factorAdjacencyList.loopF
    simp only [a1]
    simpa using b1

end FG
end OpenGM
