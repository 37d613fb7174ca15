import Mathlib.Combinatorics.SimpleGraph.Acyclic
/-
Adding a vertex that is joined to vertices of different components of a forest.
-/
namespace OpenGM
variable {V : Type}

/-- `G` with the vertex `f` joined to the vertices in `S`. -/
def starAdd (G : SimpleGraph V) (f : V) (S : List V) : SimpleGraph V where
  Adj x y := G.Adj x y ∨ (x = f ∧ y ∈ S ∧ y ≠ f) ∨ (y = f ∧ x ∈ S ∧ x ≠ f)
  symm := ⟨by
    rintro x y (h | h | h)
    · exact Or.inl h.symm
    · exact Or.inr (Or.inr h)
    · exact Or.inr (Or.inl h)⟩
  loopless := ⟨by
    rintro x (h | ⟨rfl, _, h⟩ | ⟨rfl, _, h⟩)
    · exact G.loopless.irrefl x h
    · exact h rfl
    · exact h rfl⟩

theorem le_starAdd (G : SimpleGraph V) (f : V) (S : List V) : G ≤ starAdd G f S := fun _ _ h => Or.inl h

/-- Belongs to the component of the new star. -/
def InStar (G : SimpleGraph V) (f : V) (S : List V) (x : V) : Prop := G.Reachable x f ∨ ∃ a ∈ S, G.Reachable x a

theorem starAdd_reachable {G : SimpleGraph V} {f : V} {S : List V} {x y : V} (h : (starAdd G f S).Reachable x y) :
    G.Reachable x y ∨ (InStar G f S x ∧ InStar G f S y) := by
  obtain ⟨p⟩ := h
  induction p with
  | nil => exact Or.inl (SimpleGraph.Reachable.refl _)
  | @cons u v w huv p ih =>
    have hs : G.Reachable u v ∨ (InStar G f S u ∧ InStar G f S v) := by
      rcases huv with h | ⟨rfl, h, _⟩ | ⟨rfl, h, _⟩
      · exact Or.inl h.reachable
      · exact Or.inr ⟨Or.inl (SimpleGraph.Reachable.refl _), Or.inr ⟨v, h, SimpleGraph.Reachable.refl _⟩⟩
      · exact Or.inr ⟨Or.inr ⟨u, h, SimpleGraph.Reachable.refl _⟩, Or.inl (SimpleGraph.Reachable.refl _)⟩
    have tr : ∀ {a b : V}, G.Reachable a b → InStar G f S b → InStar G f S a := by
      rintro a b hab (h | ⟨c, hc, h⟩)
      · exact Or.inl (hab.trans h)
      · exact Or.inr ⟨c, hc, hab.trans h⟩
    rcases hs with h1 | ⟨h1, h1'⟩
    · rcases ih with h2 | ⟨h2, h2'⟩
      · exact Or.inl (h1.trans h2)
      · exact Or.inr ⟨tr h1 h2, h2'⟩
    · rcases ih with h2 | ⟨h2, h2'⟩
      · exact Or.inr ⟨h1, tr h2.symm h1'⟩
      · exact Or.inr ⟨h1, h2'⟩

theorem isolated_reachable {G : SimpleGraph V} {f : V} (hf : ∀ x, ¬ G.Adj f x) {x : V} (h : G.Reachable f x) : x = f := by
  obtain ⟨p⟩ := h
  cases p with
  | nil => rfl
  | cons h _ => exact absurd h (hf _)

theorem starAdd_acyclic {G : SimpleGraph V} (hG : G.IsAcyclic) {f : V} (hf : ∀ x, ¬ G.Adj f x) : ∀ S : List V, f ∉ S →
    S.Pairwise (fun a b => ¬ G.Reachable a b) → (starAdd G f S).IsAcyclic := by
  intro S
  induction S with
  | nil =>
    intro _ _
    have : starAdd G f [] = G := by
      ext x y
      simp [starAdd]
    rw [this]
    exact hG
  | cons v S ih =>
    intro hnf hd
    rw [List.pairwise_cons] at hd
    have hvf : v ≠ f := fun h => hnf (by simp [h])
    have hle : starAdd G f (v :: S) ≤ starAdd G f S ⊔ SimpleGraph.edge f v := by
      rintro x y (h | ⟨rfl, h, h'⟩ | ⟨rfl, h, h'⟩)
      · exact Or.inl (Or.inl h)
      · rcases List.mem_cons.mp h with h | h
        · subst h
          exact Or.inr (by rw [SimpleGraph.edge_adj]; exact ⟨Or.inl ⟨rfl, rfl⟩, fun e => h' e.symm⟩)
        · exact Or.inl (Or.inr (Or.inl ⟨rfl, h, h'⟩))
      · rcases List.mem_cons.mp h with h | h
        · subst h
          exact Or.inr (by rw [SimpleGraph.edge_adj]; exact ⟨Or.inr ⟨rfl, rfl⟩, h'⟩)
        · exact Or.inl (Or.inr (Or.inr ⟨rfl, h, h'⟩))
    refine SimpleGraph.IsAcyclic.anti hle ?_
    refine SimpleGraph.IsAcyclic.sup_edge_of_not_reachable ?_ (ih (fun h => hnf (by simp [h])) hd.2)
    intro hr
    rcases starAdd_reachable hr with h | ⟨_, h | ⟨a, ha, h⟩⟩
    · exact hvf (isolated_reachable hf h)
    · exact hvf (isolated_reachable hf h.symm)
    · exact hd.1 a ha h

theorem starAdd_reachable_of {G : SimpleGraph V} {f : V} {S : List V} {a b x y : V} (ha : a ∈ S) (hb : b ∈ S) (hx : G.Reachable x a) (hy : G.Reachable y b) :
    (starAdd G f S).Reachable x y := by
  have h1 : ∀ c ∈ S, (starAdd G f S).Reachable f c := by
    intro c hc
    by_cases e : c = f
    · subst e
      exact SimpleGraph.Reachable.refl _
    · exact SimpleGraph.Adj.reachable (Or.inr (Or.inl ⟨rfl, hc, e⟩))
  exact ((hx.mono (le_starAdd G f S)).trans (h1 a ha).symm).trans ((h1 b hb).trans (hy.mono (le_starAdd G f S)).symm)

end OpenGM
