import Verif.Lemmas.Search
import Verif.Lemmas.Built
import Verif.Spec.FactorGraph
/-
The graph of the variables of a problem whose terms have at most two variables, and what it inherits from the bipartite
variable-factor graph.
-/
namespace OpenGM.DP
open Spec Search
variable {V : Type}

/-- Term `f` is a term of the two variables `a` and `b`. -/
def PairTerm (p : Problem V) (f a b : Nat) : Prop := ∃ t : Term V, p.terms[f]? = some t ∧ (t.vars = [a, b] ∨ t.vars = [b, a])

theorem PairTerm.symm {p : Problem V} {f a b : Nat} (h : PairTerm p f a b) : PairTerm p f b a := by
  obtain ⟨t, h1, h2⟩ := h
  exact ⟨t, h1, h2.symm⟩

/-- Variables that share a term of two variables. -/
def pairGraph (p : Problem V) : SimpleGraph Nat where
  Adj a b := a ≠ b ∧ ∃ f, PairTerm p f a b
  symm := ⟨fun _ _ h => ⟨h.1.symm, h.2.imp fun _ h => h.symm⟩⟩
  loopless := ⟨fun _ h => h.1 rfl⟩

/-- The scopes of the terms. -/
abbrev scopesOf (p : Problem V) : List (List Nat) := p.terms.map (·.vars)

theorem PairTerm.adjL {p : Problem V} {f a b : Nat} (h : PairTerm p f a b) :
    (bipartite (scopesOf p)).Adj (.inl a) (.inr f) := by
  obtain ⟨t, h1, h2⟩ := h
  refine ⟨t.vars, by simp [h1], ?_⟩
  rcases h2 with h2 | h2 <;> simp [h2]

theorem PairTerm.other {p : Problem V} {f a b c d : Nat} (h : PairTerm p f a b) (h' : PairTerm p f c d) :
    (c = a ∧ d = b) ∨ (c = b ∧ d = a) := by
  obtain ⟨t, h1, h2⟩ := h
  obtain ⟨t', h1', h2'⟩ := h'
  rw [h1] at h1'
  cases h1'
  rcases h2 with h2 | h2 <;> rw [h2] at h2' <;> simp at h2' <;> omega

theorem bridge_contra {p : Problem V} (hA : (bipartite (scopesOf p)).IsAcyclic) {f a b : Nat} (hne : a ≠ b)
    (h : PairTerm p f a b)
    (hr : ((bipartite (scopesOf p)).deleteEdges {s(.inl a, .inr f)}).Reachable (.inl a) (.inl b)) : False := by
  have hb := SimpleGraph.isAcyclic_iff_forall_adj_isBridge.mp hA h.adjL
  rw [SimpleGraph.isBridge_iff] at hb
  apply hb
  refine hr.trans (SimpleGraph.Adj.reachable ?_)
  rw [SimpleGraph.deleteEdges_adj]
  refine ⟨h.symm.adjL, ?_⟩
  simp only [Set.mem_singleton_iff, Sym2.eq_iff]
  rintro (⟨h1, _⟩ | ⟨h1, _⟩)
  · exact hne (by injection h1 with h1; exact h1.symm)
  · cases h1

theorem hop {p : Problem V} {f g a b c : Nat} (hg : g ≠ f) (h : PairTerm p g b c) :
    ((bipartite (scopesOf p)).deleteEdges {s(.inl a, .inr f)}).Reachable (.inl b) (.inl c) := by
  have e1 : ((bipartite (scopesOf p)).deleteEdges {s(.inl a, .inr f)}).Adj (.inl b) (.inr g) := by
    rw [SimpleGraph.deleteEdges_adj]
    refine ⟨h.adjL, ?_⟩
    simp only [Set.mem_singleton_iff, Sym2.eq_iff]
    rintro (⟨_, h1⟩ | ⟨h1, _⟩)
    · exact hg (by injection h1)
    · cases h1
  have e2 : ((bipartite (scopesOf p)).deleteEdges {s(.inl a, .inr f)}).Adj (.inl c) (.inr g) := by
    rw [SimpleGraph.deleteEdges_adj]
    refine ⟨h.symm.adjL, ?_⟩
    simp only [Set.mem_singleton_iff, Sym2.eq_iff]
    rintro (⟨_, h1⟩ | ⟨h1, _⟩)
    · exact hg (by injection h1)
    · cases h1
  exact e1.reachable.trans e2.symm.reachable

/-- In an acyclic problem two variables share at most one term of two variables. -/
theorem pair_unique {p : Problem V} (hA : (bipartite (scopesOf p)).IsAcyclic) {f g a b : Nat} (hne : a ≠ b)
    (h : PairTerm p f a b) (h' : PairTerm p g a b) : f = g := by
  by_contra e
  exact bridge_contra hA hne h (hop (fun h => e h.symm) h')

theorem pairGraph_acyclic {p : Problem V} (hA : (bipartite (scopesOf p)).IsAcyclic) : (pairGraph p).IsAcyclic := by
  rw [SimpleGraph.isAcyclic_iff_forall_adj_isBridge]
  rintro a b ⟨hne, f, hf⟩
  rw [SimpleGraph.isBridge_iff]
  intro hr
  apply bridge_contra hA hne hf
  obtain ⟨w⟩ := hr
  suffices H : ∀ c d (w : ((pairGraph p).deleteEdges {s(a, b)}).Walk c d),
      ((bipartite (scopesOf p)).deleteEdges {s(.inl a, .inr f)}).Reachable (.inl c) (.inl d) from H a b w
  intro c d w
  induction w with
  | nil => exact SimpleGraph.Reachable.refl _
  | cons hadj _ ih =>
    refine SimpleGraph.Reachable.trans ?_ ih
    rw [SimpleGraph.deleteEdges_adj] at hadj
    obtain ⟨⟨hn, g, hg⟩, hnot⟩ := hadj
    refine hop ?_ hg
    rintro rfl
    apply hnot
    simp only [Set.mem_singleton_iff, Sym2.eq_iff]
    exact hf.other hg

/-- Reachability among variables is the same in both graphs if every term has at most two variables. -/
theorem reachable_bipartite {p : Problem V} {a b : Nat} (h : (pairGraph p).Reachable a b) :
    (bipartite (scopesOf p)).Reachable (.inl a) (.inl b) := by
  obtain ⟨w⟩ := h
  induction w with
  | nil => exact SimpleGraph.Reachable.refl _
  | cons hadj _ ih =>
    obtain ⟨_, g, hg⟩ := hadj
    exact (hg.adjL.reachable.trans hg.symm.adjL.symm.reachable).trans ih

theorem reachable_pair {p : Problem V} (h2 : ∀ t ∈ p.terms, t.vars.length ≤ 2) {a b : Nat}
    (h : (bipartite (scopesOf p)).Reachable (.inl a) (.inl b)) : (pairGraph p).Reachable a b := by
  obtain ⟨w⟩ := h
  have two : ∀ u v f : Nat, (bipartite (scopesOf p)).Adj (.inl u) (.inr f) → (bipartite (scopesOf p)).Adj (.inl v) (.inr f) →
      (pairGraph p).Reachable u v := by
    rintro u v f ⟨s, hs, hu⟩ ⟨s', hs', hv⟩
    rw [hs] at hs'
    cases hs'
    by_cases e : u = v
    · subst e; exact SimpleGraph.Reachable.refl _
    · simp only [List.getElem?_map, Option.map_eq_some_iff] at hs
      obtain ⟨t, ht, rfl⟩ := hs
      have hl := h2 t (List.mem_of_getElem? ht)
      apply SimpleGraph.Adj.reachable
      refine ⟨e, f, t, ht, ?_⟩
      match hvs : t.vars, hl, hu, hv with
      | [], _, hu, _ => simp at hu
      | [x], _, hu, hv => simp at hu hv; omega
      | [x, y], _, hu, hv => simp at hu hv ⊢; omega
      | _ :: _ :: _ :: _, hl, _, _ => simp at hl
  suffices H : ∀ (c d : Nat ⊕ Nat) (w : (bipartite (scopesOf p)).Walk c d), ∀ v, d = .inl v →
      (∀ u, c = .inl u → (pairGraph p).Reachable u v) ∧
      (∀ f u, c = .inr f → (bipartite (scopesOf p)).Adj (.inl u) (.inr f) → (pairGraph p).Reachable u v) from
    (H _ _ w b rfl).1 a rfl
  intro c d w
  induction w with
  | nil =>
    rintro v rfl
    exact ⟨fun u hu => by cases hu; exact SimpleGraph.Reachable.refl _, fun f u hu => by cases hu⟩
  | @cons c e d hadj w ih =>
    rintro v rfl
    obtain ⟨i1, i2⟩ := ih v rfl
    constructor
    · rintro u rfl
      rcases e with e | e
      · exact absurd hadj id
      · exact i2 e u rfl hadj
    · rintro f u rfl hu
      rcases e with e | e
      · exact (two u e f hu hadj.symm).trans (i1 e rfl)
      · exact absurd hadj id

/-- The neighbours of a variable are variables of the problem. -/
theorem PairTerm.range {gm : GM V} {p : Problem V} (hr : Represents gm p) {f a b : Nat} (h : PairTerm p f a b) :
    a < p.numLabels.length ∧ b < p.numLabels.length ∧ a ≠ b := by
  obtain ⟨t, h1, h2⟩ := h
  obtain ⟨fr, hfr, hm⟩ : ∃ fr, gm.factors[f]? = some fr ∧ FactorMatches gm fr t := by
    have hlen := hr.factors.length_eq
    have hf : f < p.terms.length := (List.getElem?_eq_some_iff.mp h1).1
    have hf' : f < gm.factors.length := by omega
    refine ⟨gm.factors[f], List.getElem?_eq_getElem hf', ?_⟩
    have := hr.factors.get hf' hf
    simp only [List.get_eq_getElem] at this
    rw [List.getElem?_eq_getElem hf] at h1
    cases h1
    exact this
  have h3 := hm.range
  have h4 := hm.sorted
  rw [hr.labels] at h3
  rcases h2 with h2 | h2 <;> rw [h2] at h3 h4 <;> simp at h3 h4 <;> omega

end OpenGM.DP
