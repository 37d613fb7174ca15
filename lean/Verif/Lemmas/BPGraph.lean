import Mathlib.Combinatorics.SimpleGraph.Acyclic
/-
The two sides of an edge of a forest.
-/
namespace OpenGM
namespace BP
variable {X : Type} {G : SimpleGraph X}

/-- What can be reached from `a` without the edge between `a` and `b`. -/
def side (G : SimpleGraph X) (a b : X) : Set X := {x | (G.deleteEdges {s(a, b)}).Reachable a x}

theorem self_mem_side (a b : X) : a ∈ side G a b := SimpleGraph.Reachable.refl a

theorem not_mem_side (hG : G.IsAcyclic) {a b : X} (h : G.Adj a b) : b ∉ side G a b := by
  have := SimpleGraph.isAcyclic_iff_forall_adj_isBridge.mp hG h
  rw [SimpleGraph.isBridge_iff] at this
  exact this

theorem side_step {a b x y : X} (hx : x ∈ side G a b) (h : G.Adj x y) (hne : s(x, y) ≠ s(a, b)) : y ∈ side G a b :=
  hx.trans (SimpleGraph.Adj.reachable (by rw [SimpleGraph.deleteEdges_adj]; exact ⟨h, by simpa using hne⟩))

theorem side_induction {a b : X} {P : X → Prop} (h0 : P a)
    (hs : ∀ x y, x ∈ side G a b → y ∈ side G a b → P x → G.Adj x y → s(x, y) ≠ s(a, b) → P y) : ∀ x ∈ side G a b, P x := by
  intro x hx
  have hx' : (G.deleteEdges {s(a, b)}).Reachable a x := hx
  rw [SimpleGraph.reachable_iff_reflTransGen] at hx'
  induction hx' with
  | refl => exact h0
  | tail hr hadj ih =>
    rename_i y z
    have hy : y ∈ side G a b := by
      show (G.deleteEdges {s(a, b)}).Reachable a y
      rw [SimpleGraph.reachable_iff_reflTransGen]; exact hr
    rw [SimpleGraph.deleteEdges_adj] at hadj
    exact hs y z hy hx (ih hy) hadj.1 (by simpa using hadj.2)

theorem side_sub (hG : G.IsAcyclic) {a b c : X} (hc : G.Adj c a) (hcb : c ≠ b) : side G c a ⊆ side G a b := by
  have ha := not_mem_side hG hc
  refine side_induction ?_ ?_
  · refine side_step (self_mem_side a b) hc.symm ?_
    intro h
    rw [Sym2.eq_iff] at h
    rcases h with ⟨_, h⟩ | ⟨h, h'⟩
    · exact hcb h
    · exact hcb (h'.trans h)
  · intro x y hx hy ih hadj _
    refine side_step ih hadj ?_
    intro h
    rw [Sym2.eq_iff] at h
    rcases h with ⟨rfl, _⟩ | ⟨_, rfl⟩
    · exact ha hx
    · exact ha hy

theorem side_opposite (hG : G.IsAcyclic) {a b x : X} (h : G.Adj a b) (h1 : x ∈ side G a b) (h2 : x ∈ side G b a) : False := by
  have h2' : (G.deleteEdges {s(a, b)}).Reachable b x := by
    rw [Sym2.eq_swap]; exact h2
  have h1' : (G.deleteEdges {s(a, b)}).Reachable a x := h1
  exact not_mem_side hG h (h1'.trans h2'.symm)

theorem side_disjoint (hG : G.IsAcyclic) {a c c' x : X} (hc : G.Adj c a) (hc' : G.Adj c' a) (hne : c ≠ c') (h1 : x ∈ side G c a) (h2 : x ∈ side G c' a) : False :=
  side_opposite hG hc h1 (side_sub hG hc' (Ne.symm hne) h2)

theorem side_cases {a b x : X} (hG : G.IsAcyclic) (hx : x ∈ side G a b) (hne : x ≠ a) : ∃ c, G.Adj c a ∧ c ≠ b ∧ x ∈ side G c a := by
  have key : ∀ y ∈ side G a b, y ≠ a → ∃ c, G.Adj c a ∧ c ≠ b ∧ y ∈ side G c a := by
    refine side_induction (fun h => absurd rfl h) ?_
    intro y z hy hz ih hadj hne2 hza
    by_cases hya : y = a
    · subst hya
      refine ⟨z, hadj.symm, ?_, self_mem_side _ _⟩
      rintro rfl
      exact hne2 rfl
    · obtain ⟨c, c1, c2, c3⟩ := ih hya
      refine ⟨c, c1, c2, side_step c3 hadj ?_⟩
      intro h
      rw [Sym2.eq_iff] at h
      rcases h with ⟨_, h⟩ | ⟨h, _⟩
      · exact hza h
      · exact hya h
  exact key x hx hne

theorem side_reachable {a b x : X} (hx : x ∈ side G a b) : G.Reachable a x :=
  SimpleGraph.Reachable.mono (SimpleGraph.deleteEdges_le _) hx

/-- The rest of the component of `a` is divided into the sides of its neighbours. -/
theorem reachable_cases {a x : X} (hx : G.Reachable a x) (hne : x ≠ a) : ∃ c, G.Adj c a ∧ x ∈ side G c a := by
  have key : ∀ y, G.Reachable a y → y ≠ a → ∃ c, G.Adj c a ∧ y ∈ side G c a := by
    intro y hy
    rw [SimpleGraph.reachable_iff_reflTransGen] at hy
    induction hy with
    | refl => intro h; exact absurd rfl h
    | tail hr hadj ih =>
      rename_i y z
      intro hza
      by_cases hya : y = a
      · subst hya
        exact ⟨z, hadj.symm, self_mem_side _ _⟩
      · obtain ⟨c, c1, c3⟩ := ih hya
        refine ⟨c, c1, side_step c3 hadj ?_⟩
        intro h
        rw [Sym2.eq_iff] at h
        rcases h with ⟨_, h⟩ | ⟨h, _⟩
        · exact hza h
        · exact hya h
  exact key x hx hne

end BP
end OpenGM
