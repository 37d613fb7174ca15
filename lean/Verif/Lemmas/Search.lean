import Mathlib.Combinatorics.SimpleGraph.Acyclic
/-
Graph search with father pointers, abstractly: the invariant that makes "found a visited vertex that is not my father"
equivalent to the existence of a cycle.
-/
namespace OpenGM.Search
variable {X : Type}

/-- What is recorded about a vertex. -/
inductive Father (X : Type) where
  | unvisited
  | root
  | of (x : X)

/-- The graph of the father edges. -/
def tree (fa : X → Father X) : SimpleGraph X where
  Adj x y := x ≠ y ∧ (fa x = .of y ∨ fa y = .of x)
  symm := ⟨fun _ _ h => ⟨h.1.symm, h.2.symm⟩⟩
  loopless := ⟨fun _ h => h.1 rfl⟩

/-- Invariant of the search from root `r`: `D` is what earlier searches visited, `pend` are the vertices still in a
queue; if `cur = some (x, ds)`, vertex `x` is being processed and its neighbours in `ds` are done. -/
structure Inv (G : SimpleGraph X) (D : X → Prop) (r : X) (fa : X → Father X) (pend : List X) (cur : Option (X × List X)) :
    Prop where
  edge : ∀ x y, fa y = .of x → G.Adj x y ∧ fa x ≠ .unvisited
  time : ∃ (t : X → Nat) (T : Nat), (∀ x, fa x ≠ .unvisited → t x < T) ∧ ∀ x y, fa y = .of x → t x < t y
  reach : ∀ x, fa x ≠ .unvisited → ¬ D x → (tree fa).Reachable r x
  closed : ∀ x y, D x → G.Adj x y → D y
  dvis : ∀ x, D x → fa x ≠ .unvisited
  pendVis : ∀ x ∈ pend, fa x ≠ .unvisited ∧ ¬ D x
  nodup : pend.Nodup
  leaf : ∀ x ∈ pend, ∀ y, fa y ≠ .of x
  processed : ∀ x, fa x ≠ .unvisited → x ∉ pend → (∀ c, cur = some c → c.1 ≠ x) → ∀ y, G.Adj x y →
    (fa y = .of x ∨ fa x = .of y)
  cur : ∀ x ds, cur = some (x, ds) → x ∉ pend ∧ fa x ≠ .unvisited ∧ ¬ D x ∧ (∀ y ∈ ds, fa y = .of x ∨ fa x = .of y) ∧
    ∀ y, fa y = .of x → y ∈ ds

variable {G : SimpleGraph X} {D : X → Prop} {r : X} {fa : X → Father X} {pend : List X}

theorem pop {x : X} (h : Inv G D r fa (x :: pend) none) : Inv G D r fa pend (some (x, [])) where
  edge := h.edge
  time := h.time
  reach := h.reach
  closed := h.closed
  dvis := h.dvis
  pendVis := fun y hy => h.pendVis y (List.mem_cons_of_mem _ hy)
  nodup := (List.nodup_cons.mp h.nodup).2
  leaf := fun y hy => h.leaf y (List.mem_cons_of_mem _ hy)
  processed := by
    intro z hz hp hc y hy
    refine h.processed z hz ?_ (by simp) y hy
    intro hm
    rcases List.mem_cons.mp hm with rfl | hm
    · exact hc (z, []) rfl rfl
    · exact hp hm
  cur := by
    rintro x' ds ⟨rfl, rfl⟩
    obtain ⟨h1, h2⟩ := h.pendVis x (by simp)
    exact ⟨(List.nodup_cons.mp h.nodup).1, h1, h2, by simp, fun y hy => absurd hy (h.leaf x (by simp) y)⟩

theorem tree_mono {fa' : X → Father X} (h : ∀ x y, fa x = .of y → fa' x = .of y) : tree fa ≤ tree fa' := by
  intro x y hxy
  exact ⟨hxy.1, hxy.2.imp (h _ _) (h _ _)⟩

/-- An unvisited neighbour becomes a child. -/
theorem visit [DecidableEq X] {x : X} {ds : List X} (h : Inv G D r fa pend (some (x, ds))) {y : X} (hadj : G.Adj x y)
    (hy : fa y = .unvisited) : Inv G D r (Function.update fa y (.of x)) (pend ++ [y]) (some (x, ds ++ [y])) := by
  obtain ⟨c1, c2, c3, c4, c5⟩ := h.cur x ds rfl
  have hxy : x ≠ y := hadj.ne
  have up : ∀ z, z ≠ y → Function.update fa y (.of x) z = fa z := fun z hz => Function.update_of_ne hz _ _
  have upy : Function.update fa y (.of x) y = .of x := Function.update_self _ _ _
  have ext : ∀ a b, fa a = .of b → Function.update fa y (.of x) a = .of b := by
    intro a b hab
    rw [up a (by rintro rfl; rw [hy] at hab; cases hab), hab]
  have vis : ∀ z, Function.update fa y (.of x) z ≠ .unvisited ↔ (fa z ≠ .unvisited ∨ z = y) := by
    intro z
    by_cases hz : z = y
    · subst hz; simp [upy]
    · simp [up z hz, hz]
  have notof : ∀ z, fa z ≠ .of y := fun z hz => (h.edge y z hz).2 hy
  refine ⟨?_, ?_, ?_, h.closed, ?_, ?_, ?_, ?_, ?_, ?_⟩
  · intro a b hab
    by_cases hb : b = y
    · subst hb
      rw [upy] at hab
      cases hab
      exact ⟨hadj, (vis x).mpr (Or.inl c2)⟩
    · rw [up b hb] at hab
      exact ⟨(h.edge a b hab).1, (vis a).mpr (Or.inl (h.edge a b hab).2)⟩
  · obtain ⟨t, T, h1, h2⟩ := h.time
    refine ⟨Function.update t y T, T + 1, ?_, ?_⟩
    · intro z hz
      by_cases e : z = y
      · subst e; simp
      · rw [Function.update_of_ne e]
        rcases (vis z).mp hz with h' | h'
        · have := h1 z h'; omega
        · exact absurd h' e
    · intro a b hab
      by_cases hb : b = y
      · subst hb
        rw [upy] at hab
        cases hab
        rw [Function.update_self, Function.update_of_ne hxy]
        exact h1 x c2
      · rw [up b hb] at hab
        have ha : a ≠ y := by rintro rfl; exact notof b hab
        rw [Function.update_of_ne hb, Function.update_of_ne ha]
        exact h2 a b hab
  · intro z hz hD
    have hle : tree fa ≤ tree (Function.update fa y (.of x)) := tree_mono ext
    rcases (vis z).mp hz with h' | rfl
    · exact (h.reach z h' hD).mono hle
    · refine ((h.reach x c2 c3).mono hle).trans (SimpleGraph.Adj.reachable ?_)
      exact ⟨hxy, Or.inr upy⟩
  · intro z hz
    exact (vis z).mpr (Or.inl (h.dvis z hz))
  · intro z hz
    rcases List.mem_append.mp hz with hz | hz
    · exact ⟨(vis z).mpr (Or.inl (h.pendVis z hz).1), (h.pendVis z hz).2⟩
    · simp only [List.mem_singleton] at hz; subst hz
      exact ⟨(vis z).mpr (Or.inr rfl), fun hD => (h.dvis z hD) hy⟩
  · rw [List.nodup_append]
    refine ⟨h.nodup, by simp, ?_⟩
    intro a ha b hb
    simp only [List.mem_singleton] at hb; subst hb
    rintro rfl
    exact (h.pendVis a ha).1 hy
  · intro z hz w hw
    by_cases hwy : w = y
    · subst hwy
      rw [upy] at hw
      cases hw
      rcases List.mem_append.mp hz with hz | hz
      · exact c1 hz
      · simp only [List.mem_singleton] at hz; exact hxy hz
    · rw [up w hwy] at hw
      rcases List.mem_append.mp hz with hz | hz
      · exact h.leaf z hz w hw
      · simp only [List.mem_singleton] at hz; subst hz; exact notof w hw
  · intro z hz hp hc w hw
    have hzy : z ≠ y := by rintro rfl; exact hp (by simp)
    have hzv : fa z ≠ .unvisited := by
      rcases (vis z).mp hz with h' | h'
      · exact h'
      · exact absurd h' hzy
    have hzx : x ≠ z := fun e => hc (x, ds ++ [y]) rfl e
    rcases h.processed z hzv (fun hm => hp (by simp [hm])) (by rintro c ⟨rfl⟩; exact hzx) w hw with h' | h'
    · exact Or.inl (ext _ _ h')
    · exact Or.inr (ext _ _ h')
  · rintro x' ds' ⟨rfl, rfl⟩
    refine ⟨?_, (vis x).mpr (Or.inl c2), c3, ?_, ?_⟩
    · simp [c1, hxy]
    · intro z hz
      rcases List.mem_append.mp hz with hz | hz
      · rcases c4 z hz with h' | h'
        · exact Or.inl (ext _ _ h')
        · exact Or.inr (ext _ _ h')
      · simp only [List.mem_singleton] at hz; subst hz; exact Or.inl upy
    · intro z hz
      by_cases e : z = y
      · simp [e]
      · rw [up z e] at hz
        simp [c5 z hz]

/-- The father itself is passed over. -/
theorem skip {x : X} {ds : List X} (h : Inv G D r fa pend (some (x, ds))) {y : X} (hy : fa x = .of y) :
    Inv G D r fa pend (some (x, ds ++ [y])) where
  edge := h.edge
  time := h.time
  reach := h.reach
  closed := h.closed
  dvis := h.dvis
  pendVis := h.pendVis
  nodup := h.nodup
  leaf := h.leaf
  processed := by
    intro z hz hp hc w hw
    exact h.processed z hz hp (by rintro c ⟨rfl⟩; exact hc (x, ds ++ [y]) rfl) w hw
  cur := by
    rintro x' ds' ⟨rfl, rfl⟩
    obtain ⟨c1, c2, c3, c4, c5⟩ := h.cur x ds rfl
    refine ⟨c1, c2, c3, ?_, fun z hz => by simp [c5 z hz]⟩
    intro z hz
    rcases List.mem_append.mp hz with hz | hz
    · exact c4 z hz
    · simp only [List.mem_singleton] at hz; subst hz; exact Or.inr hy

/-- When all neighbours are done the vertex is processed. -/
theorem finish {x : X} {ds : List X} (h : Inv G D r fa pend (some (x, ds))) (hall : ∀ y, G.Adj x y → y ∈ ds) :
    Inv G D r fa pend none where
  edge := h.edge
  time := h.time
  reach := h.reach
  closed := h.closed
  dvis := h.dvis
  pendVis := h.pendVis
  nodup := h.nodup
  leaf := h.leaf
  processed := by
    intro z hz hp _ w hw
    by_cases e : x = z
    · subst e
      exact (h.cur x ds rfl).2.2.2.1 w (hall w hw)
    · exact h.processed z hz hp (by rintro c ⟨rfl⟩; exact e) w hw
  cur := by intro x ds hc; cases hc

/-- A visited neighbour that is not the father closes a cycle. -/
theorem cycle {x : X} {ds : List X} (h : Inv G D r fa pend (some (x, ds))) {y : X} (hadj : G.Adj x y) (hnd : y ∉ ds)
    (hv : fa y ≠ .unvisited) (hne : fa x ≠ .of y) : ¬ G.IsAcyclic := by
  obtain ⟨c1, c2, c3, c4, c5⟩ := h.cur x ds rfl
  intro hA
  have hD : ¬ D y := fun hD => c3 (h.closed y x hD hadj.symm)
  have hb := SimpleGraph.isAcyclic_iff_forall_adj_isBridge.mp hA hadj
  rw [SimpleGraph.isBridge_iff] at hb
  apply hb
  have hle : tree fa ≤ G.deleteEdges {s(x, y)} := by
    intro a b hab
    rw [SimpleGraph.deleteEdges_adj]
    refine ⟨?_, ?_⟩
    · rcases hab.2 with h' | h'
      · exact (h.edge b a h').1.symm
      · exact (h.edge a b h').1
    · simp only [Set.mem_singleton_iff, Sym2.eq_iff]
      rintro (⟨rfl, rfl⟩ | ⟨rfl, rfl⟩)
      · rcases hab.2 with h' | h'
        · exact hne h'
        · exact hnd (c5 _ h')
      · rcases hab.2 with h' | h'
        · exact hnd (c5 _ h')
        · exact hne h'
  exact ((h.reach x c2 c3).symm.trans (h.reach y hv hD)).mono hle

/-- After a search, everything visited is closed and a new root can be chosen. -/
theorem newRoot [DecidableEq X] (h : Inv G D r fa [] none) {r' : X} (hr : fa r' = .unvisited) :
    Inv G (fun x => fa x ≠ .unvisited) r' (Function.update fa r' .root) [r'] none := by
  have up : ∀ z, z ≠ r' → Function.update fa r' .root z = fa z := fun z hz => Function.update_of_ne hz _ _
  have upy : Function.update fa r' .root r' = .root := Function.update_self _ _ _
  have upof : ∀ z w, Function.update fa r' .root z = .of w ↔ fa z = .of w := by
    intro z w
    by_cases hz : z = r'
    · subst hz; simp [upy, hr]
    · rw [up z hz]
  have vis : ∀ z, fa z ≠ .unvisited → Function.update fa r' .root z ≠ .unvisited := by
    intro z hz
    by_cases e : z = r'
    · subst e; simp [upy]
    · rwa [up z e]
  refine ⟨?_, ?_, ?_, ?_, vis, ?_, by simp, ?_, ?_, by intro x ds hc; cases hc⟩
  · intro x y hxy
    rw [upof] at hxy
    exact ⟨(h.edge x y hxy).1, vis x (h.edge x y hxy).2⟩
  · obtain ⟨t, T, h1, h2⟩ := h.time
    refine ⟨Function.update t r' 0, T + 1, ?_, ?_⟩
    · intro z hz
      by_cases e : z = r'
      · subst e; simp
      · rw [Function.update_of_ne e]
        rw [up z e] at hz
        have := h1 z hz; omega
    · intro x y hxy
      rw [upof] at hxy
      have hx : x ≠ r' := by rintro rfl; exact (h.edge x y hxy).2 hr
      have hy : y ≠ r' := by rintro rfl; rw [hr] at hxy; cases hxy
      rw [Function.update_of_ne hx, Function.update_of_ne hy]
      exact h2 x y hxy
  · intro x hx hD
    have : x = r' := by
      by_contra e
      rw [up x e] at hx
      exact hD hx
    subst this; exact SimpleGraph.Reachable.refl _
  · intro x y hx hxy
    rcases h.processed x hx (by simp) (by simp) y hxy with h' | h'
    · rw [h']; simp
    · exact (h.edge y x h').2
  · intro x hx
    simp only [List.mem_singleton] at hx; subst hx
    exact ⟨by simp [upy], by simp [hr]⟩
  · intro x hx y hy
    simp only [List.mem_singleton] at hx; subst hx
    rw [upof] at hy
    exact (h.edge x y hy).2 hr
  · intro x hx hp _ y hy
    simp only [List.mem_singleton] at hp
    rw [up x hp] at hx
    rw [upof, upof]
    exact h.processed x hx (by simp) (by simp) y hy

/-- If every edge is a father edge, the graph is acyclic. -/
theorem acyclic (h : Inv G D r fa [] none) (hall : ∀ x y, G.Adj x y → fa x = .of y ∨ fa y = .of x) : G.IsAcyclic := by
  obtain ⟨t, T, h1, h2⟩ := h.time
  classical
  intro v c hc
  -- a vertex of the cycle with latest time
  obtain ⟨m, hm, hmax⟩ : ∃ m ∈ c.support, ∀ z ∈ c.support, t z ≤ t m := by
    have hne : c.support ≠ [] := by simp
    revert hne
    generalize c.support = l
    intro hne
    induction l with
    | nil => exact absurd rfl hne
    | cons a l ih =>
      by_cases hl : l = []
      · subst hl; exact ⟨a, by simp, by simp⟩
      · obtain ⟨m, hm, hmax⟩ := ih hl
        by_cases hle : t a ≤ t m
        · refine ⟨m, List.mem_cons_of_mem _ hm, ?_⟩
          intro z hz
          rcases List.mem_cons.mp hz with rfl | hz
          · exact hle
          · exact hmax z hz
        · refine ⟨a, by simp, ?_⟩
          intro z hz
          rcases List.mem_cons.mp hz with rfl | hz
          · exact le_refl _
          · have := hmax z hz; omega
  have hc' := hc.rotate hm
  have hsupp : ∀ z, z ∈ (c.rotate m hm).support → t z ≤ t m := by
    intro z hz
    rw [SimpleGraph.Walk.mem_support_rotate_iff] at hz
    exact hmax z hz
  have e1 := (c.rotate m hm).adj_snd hc'.not_nil
  have e2 := (c.rotate m hm).adj_penultimate hc'.not_nil
  have f1 : fa m = .of (c.rotate m hm).snd := by
    rcases hall _ _ e1 with h' | h'
    · exact h'
    · have := h2 _ _ h'
      have := hsupp _ ((c.rotate m hm).getVert_mem_support 1)
      simp only [SimpleGraph.Walk.snd] at *
      omega
  have f2 : fa m = .of (c.rotate m hm).penultimate := by
    rcases hall _ _ e2 with h' | h'
    · have := h2 _ _ h'
      have := hsupp _ ((c.rotate m hm).getVert_mem_support ((c.rotate m hm).length - 1))
      simp only [SimpleGraph.Walk.penultimate] at *
      omega
    · exact h'
  rw [f1] at f2
  exact hc'.snd_ne_penultimate (by injection f2)

/-- Nothing visited. -/
theorem init (r : X) : Inv G (fun _ => False) r (fun _ => .unvisited) [] none := by
  refine ⟨by simp, ⟨fun _ => 0, 0, by simp, by simp⟩, by simp, by simp, by simp, by simp, by simp, by simp, by simp, ?_⟩
  intro x ds hc; cases hc

end OpenGM.Search
