import Verif.Lemmas.FactorGraphPaths
/-
C77: chains, shortest paths, two-hop connections and grids of the factor graph.

Like the other structural queries these are stated for every consistent factor graph (`FG.Exact`); by `factorGraph_of_history`
the graph of every model built by a valid history is one. `ofScopes` gives the graph of any list of scopes.
-/
namespace OpenGM
open Spec
namespace FG

/-- The factor graph with the given scopes. -/
def ofScopes (n : Nat) (scopes : List (List Nat)) : FG :=
  ⟨n, scopes, (List.range n).map (fun v => (List.range scopes.length).filter (fun f => (scopes[f]?).any (fun s => s.contains v)))⟩

theorem ofScopes_exact (n : Nat) (scopes : List (List Nat)) (h1 : ∀ s ∈ scopes, s.Pairwise (· < ·))
    (h2 : ∀ s ∈ scopes, ∀ v ∈ s, v < n) : (ofScopes n scopes).Exact where
  adjLen := by simp [ofScopes]
  sorted := h1
  range := h2
  adj := by
    intro v hv
    have hv' : v < n := hv
    refine ⟨(List.range scopes.length).filter (fun f => (scopes[f]?).any (fun s => s.contains v)), ?_,
      List.Pairwise.filter _ List.pairwise_lt_range, ?_⟩
    · simp [ofScopes, hv']
    · intro f
      rw [List.mem_filter, List.mem_range]
      constructor
      · rintro ⟨f1, f2⟩
        rw [List.getElem?_eq_getElem f1] at f2
        exact ⟨scopes[f], List.getElem?_eq_getElem f1, by simpa using f2⟩
      · rintro ⟨s, s1, s2⟩
        have s1' : scopes[f]? = some s := s1
        refine ⟨(List.getElem?_eq_some_iff.mp s1').1, ?_⟩
        simp [s1', s2]

/-- C77: `isChain` always returns; the result is true if and only if the variables can be listed such that the factors of order two
are exactly the consecutive pairs (each one once) and no factor has a higher order; the list returned is such a list. -/
theorem C77_isChain (g : FG) (h : g.Exact) (chainIDs : List Nat) :
    ∃ b out, g.isChain chainIDs = some (b, out) ∧ (b = true ↔ ∃ p, ChainOrder g.numVars g.scopes p) ∧
      (b = true → ChainOrder g.numVars g.scopes out) := by
  obtain ⟨b, out, h1, h2, h3⟩ := isChain_spec g h chainIDs
  refine ⟨b, out, h1, ⟨fun hb => ⟨out, h2 hb⟩, ?_⟩, h2⟩
  rintro ⟨p, hp⟩
  cases b with
  | true => rfl
  | false => exact absurd hp (h3 rfl p)

example : (ofScopes 5 [[0, 2], [3, 4], [0, 1], [4], [1, 4]]).Exact ∧
    (ofScopes 5 [[0, 2], [3, 4], [0, 1], [4], [1, 4]]).isChain [7] = some (true, [2, 0, 1, 4, 3]) :=
  ⟨ofScopes_exact _ _ (by decide) (by decide), by decide +kernel⟩

-- a path and a separate cycle; parallel factors; a star
example : (ofScopes 5 [[0, 1], [2, 3], [3, 4], [2, 4]]).isChain [] = some (false, [0, 0, 0, 0, 1]) ∧
    (ofScopes 2 [[0, 1], [0, 1]]).isChain [] = some (false, []) ∧
    (ofScopes 4 [[0, 1], [0, 2], [0, 3]]).isChain [] = some (false, []) := by decide +kernel

/-- C77: `shortestPath` always returns. If the result is true, a path from `s` to `t` in the allowed variables with the least
number of variables has been put in front of `path`; it visits no variable twice. If the result is false there is no such path and
`path` is unchanged. If the list of allowed variables is as long as the number of variables, it must not have duplicates
(`C77_violated_allowed`). -/
theorem C77_shortestPath_partial (g : FG) (h : g.Exact) (s t : Nat) (hs : s < g.numVars) (ht : t < g.numVars)
    (path allowed : List Nat)
    (ha : allowed = [] ∨ (s ∈ allowed ∧ t ∈ allowed ∧ (∀ x ∈ allowed, x < g.numVars) ∧
      (allowed.length = g.numVars → allowed.Nodup))) :
    ∃ b out, g.shortestPath s t path allowed = some (b, out) ∧
      (b = true ↔ ∃ p, PathBetween g.scopes (fun x => x < g.numVars ∧ (allowed = [] ∨ x ∈ allowed)) s t p) ∧
      (b = true → ∃ p, out = p ++ path ∧
        ShortestBetween g.scopes (fun x => x < g.numVars ∧ (allowed = [] ∨ x ∈ allowed)) s t p ∧ p.Nodup) ∧
      (b = false → out = path) := by
  obtain ⟨b, out, h1, h2, h3⟩ := shortestPath_spec g h s t hs ht path allowed ha
  refine ⟨b, out, h1, ⟨?_, ?_⟩, h2, fun hb => (h3 hb).1⟩
  · intro hb
    obtain ⟨p, _, hp, _⟩ := h2 hb
    exact ⟨p, hp.1⟩
  · rintro ⟨p, hp⟩
    cases b with
    | true => rfl
    | false => exact absurd hp ((h3 rfl).2 p)

/-- The grid of three rows and three columns. -/
def grid33 : FG :=
  ofScopes 9 [[0, 1], [1, 2], [3, 4], [4, 5], [6, 7], [7, 8], [0, 3], [3, 6], [1, 4], [4, 7], [2, 5], [5, 8]]

example : grid33.Exact ∧ grid33.shortestPath 0 5 [9] [] = some (true, [0, 1, 2, 5, 9]) ∧
    grid33.shortestPath 0 5 [9] [0, 3, 6, 7, 8, 5, 1] = some (true, [0, 3, 6, 7, 8, 5, 9]) ∧
    grid33.shortestPath 0 5 [9] [0, 3, 6, 8, 5, 1] = some (false, [9]) ∧
    grid33.shortestPath 4 4 [] [] = some (true, [4]) :=
  ⟨ofScopes_exact _ _ (by decide) (by decide), by decide +kernel⟩

/-- C77 is violated for lists of allowed variables with duplicates: as soon as the list is as long as the number of variables
(factorgraph.hxx 955) it is not looked at. On the chain 0 - 1 - 2 with the allowed variables 0, 2, 2 the path 0, 1, 2 is returned. -/
theorem C77_violated_allowed : ∃ g : FG, g.Exact ∧ ∃ s t path allowed, s ∈ allowed ∧ t ∈ allowed ∧
    (∀ x ∈ allowed, x < g.numVars) ∧ allowed.length ≤ g.numVars ∧
    ∃ out, g.shortestPath s t path allowed = some (true, out) ∧ ∃ x ∈ out, x ∉ allowed :=
  ⟨ofScopes 3 [[0, 1], [1, 2]], ofScopes_exact _ _ (by decide) (by decide), 0, 2, [], [0, 2, 2], by decide, by decide, by decide,
    by decide, [0, 1, 2], by decide +kernel, 1, by decide, by decide⟩

/-- C77: `twoHopConnected` always returns; the result is true iff the list is not empty. Every variable between `v` and `w` is listed,
and if `v` and `w` are not neighbours themselves these are the only ones (`C77_violated_twoHop` for neighbours). -/
theorem C77_twoHop_partial (g : FG) (h : g.Exact) (v w : Nat) (hv : v < g.numVars) (hw : w < g.numVars) (hvw : v ≠ w) :
    ∃ b out, g.twoHopConnected v w = some (b, out) ∧ (b = true ↔ out ≠ []) ∧
      (∀ x, Neighbours g.scopes v x → Neighbours g.scopes x w → x ∈ out) ∧
      (∀ x ∈ out, (Neighbours g.scopes v x ∧ Neighbours g.scopes x w) ∨ (x = v ∧ Neighbours g.scopes v w)) := by
  obtain ⟨b, out, h1, h2, h3⟩ := twoHop_spec g h v w hv hw
  refine ⟨b, out, h1, h2, ?_, ?_⟩
  · intro x hx1 hx2
    exact (h3 x).mpr ⟨hvw, hx1.2, hx2⟩
  · intro x hx
    obtain ⟨_, a2, a3⟩ := (h3 x).mp hx
    by_cases e : x = v
    · exact Or.inr ⟨e, e ▸ a3⟩
    · exact Or.inl ⟨⟨fun e' => e e'.symm, a2⟩, a3⟩

/-- C77: a variable is not connected to itself via two hops. -/
theorem C77_twoHop_self (g : FG) (v : Nat) : g.twoHopConnected v v = some (false, []) := by
  simp [twoHopConnected]

example : grid33.twoHopConnected 0 4 = some (true, [1, 3]) ∧ grid33.twoHopConnected 0 8 = some (false, []) := by decide +kernel

/-- C77 is violated for neighbours: the condition of factorgraph.hxx 1084 is always true, since the two inequalities are joined by
`||`. In the model with the single factor {0, 1} the variables 0 and 1 are reported to be connected via two hops, through
variable 0. -/
theorem C77_violated_twoHop : ∃ g : FG, g.Exact ∧ ∃ v w, v ≠ w ∧ g.twoHopConnected v w = some (true, [v]) ∧
    ∀ x, ¬ (Neighbours g.scopes v x ∧ Neighbours g.scopes x w) := by
  refine ⟨ofScopes 2 [[0, 1]], ofScopes_exact _ _ (by decide) (by decide), 0, 1, by decide, by decide +kernel, ?_⟩
  rintro x ⟨⟨h1, s, hs, _, h2⟩, ⟨h3, _⟩⟩
  have hs' : s = [0, 1] := by simpa [ofScopes] using hs
  subst hs'
  simp at h2
  omega

/-- C77: `isGrid` always returns. If the result is true there is at least one variable, no factor has an order above two, and the
matrix is rectangular, not empty and contains variables. A chain is reported as a single row. -/
theorem C77_isGrid_partial (g : FG) (h : g.Exact) :
    ∃ r, g.isGrid = some r ∧
      (∀ m, r = some m → 0 < g.numVars ∧ (∀ s ∈ g.scopes, s.length ≤ 2) ∧ m ≠ [] ∧
        ∃ c, 0 < c ∧ ∀ row ∈ m, row.length = c ∧ ∀ x ∈ row, x < g.numVars) ∧
      ((∃ p, ChainOrder g.numVars g.scopes p) → ∃ p, r = some [p] ∧ ChainOrder g.numVars g.scopes p) := by
  obtain ⟨r, h1, h2⟩ := isGrid_spec g h
  refine ⟨r, h1, ?_, ?_⟩
  · intro m hm
    obtain ⟨a1, a2, a3, c, c1, c2⟩ := h2 m hm
    exact ⟨a1, a2, a3, c, c1, fun row hr => ⟨c2.cols row hr, c2.entries row hr⟩⟩
  · rintro ⟨p, hp⟩
    unfold isGrid at h1
    rw [if_neg (by have := hp.nonempty; omega),
      if_neg (by rw [(C13_maxFactorOrderLe g 2).mpr hp.order]; simp)] at h1
    by_cases e1 : g.numVars = 1
    · rw [if_pos e1] at h1
      refine ⟨[0], (Option.some.inj h1).symm, ?_⟩
      have : p = [0] := by
        have := hp.all
        rw [e1] at this
        exact List.perm_singleton.mp this
      exact this ▸ hp
    · rw [if_neg e1] at h1
      obtain ⟨b, out, c1, c2, c3⟩ := C77_isChain g h []
      have hb : b = true := c2.mpr ⟨p, hp⟩
      subst hb
      rw [c1] at h1
      exact ⟨out, (Option.some.inj h1).symm, c3 rfl⟩

/-- With the rows numbered one after the other a grid is recognized (the matrix is transposed). -/
example : grid33.isGrid = some (some [[0, 3, 6], [1, 4, 7], [2, 5, 8]]) := by decide +kernel

/-- C77 is violated: the search for the corner opposite to the first one (factorgraph.hxx 607) compares with the wrong path
(`shortestPaths[diagonalCorner]` instead of `shortestPaths[diagonalCorner - 1]`), so that the second corner is never chosen. For the
cycle 0 - 1 - 2 - 3 - 0, a grid of two rows and two columns, the result is true with a matrix of three rows and two columns, in
which variables occur twice. -/
theorem C77_violated_grid_cycle : ∃ g : FG, g.Exact ∧ (∃ m, GridOrder g.numVars g.scopes m) ∧
    g.isGrid = some (some [[0, 3], [1, 0], [2, 1]]) := by
  refine ⟨ofScopes 4 [[0, 1], [1, 2], [2, 3], [0, 3]], ofScopes_exact _ _ (by decide) (by decide), ⟨[[0, 1], [3, 2]], ?_⟩,
    by decide +kernel⟩
  exact ⟨by decide, ⟨2, by decide⟩, by decide +kernel, by decide, by decide +kernel⟩

/-- C77 is violated: for the same reason a grid of three rows and three columns, whose corners are numbered around its border, is not
recognized. -/
theorem C77_violated_grid_missed : ∃ g : FG, g.Exact ∧ (∃ m, GridOrder g.numVars g.scopes m) ∧ g.isGrid = some none := by
  refine ⟨ofScopes 9 [[0, 4], [1, 4], [1, 5], [2, 5], [2, 6], [3, 6], [3, 7], [0, 7], [4, 8], [5, 8], [6, 8], [7, 8]],
    ofScopes_exact _ _ (by decide) (by decide), ⟨[[0, 4, 1], [7, 8, 5], [3, 6, 2]], ?_⟩, by decide +kernel⟩
  exact ⟨by decide, ⟨3, by decide⟩, by decide +kernel, by decide, by decide +kernel⟩

/-- C77 is violated: variables without factors of order two are ignored. A grid of two rows and two columns together with a separate
variable is called a grid, although the matrix does not contain that variable. -/
theorem C77_violated_grid_extra : ∃ g : FG, g.Exact ∧ ∃ m, g.isGrid = some (some m) ∧
    (∃ v, v < g.numVars ∧ ∀ row ∈ m, v ∉ row) ∧ (∃ v, v < g.numVars ∧ ∀ s ∈ g.scopes, v ∉ s) :=
  ⟨ofScopes 5 [[0, 1], [1, 3], [2, 3], [0, 2]], ofScopes_exact _ _ (by decide) (by decide), [[0, 2], [1, 3]], by decide +kernel,
    ⟨4, by decide, by decide⟩, ⟨4, by decide, by decide⟩⟩

end FG
end OpenGM
