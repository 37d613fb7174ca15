import Verif.Lemmas.IsChain
import Verif.Lemmas.ShortestPath
/-! Lemmas for C77: shortestPath, twoHopConnected, isGrid. -/
namespace OpenGM
namespace FG
open Spec

theorem variablesOfFactors_spec (g : FG) (fs : List Nat) :
    (∀ f ∈ fs, f < g.scopes.length) →
      ∃ l, variablesOfFactors g fs = some l ∧ ∀ x, x ∈ l ↔ ∃ f ∈ fs, ∃ s : List Nat, g.scopes[f]? = some s ∧ x ∈ s := by
  induction fs with
  | nil => intro _; exact ⟨[], rfl, by simp⟩
  | cons f fs ih =>
    intro h
    obtain ⟨l, h1, h2⟩ := ih (fun f' hf' => h f' (by simp [hf']))
    have hf := h f (by simp)
    refine ⟨g.scopes[f] ++ l, by unfold variablesOfFactors; rw [List.getElem?_eq_getElem hf, h1], ?_⟩
    intro x
    rw [List.mem_append, h2]
    constructor
    · rintro (hx | ⟨f', hf', s, s1, s2⟩)
      · exact ⟨f, by simp, _, List.getElem?_eq_getElem hf, hx⟩
      · exact ⟨f', by simp [hf'], s, s1, s2⟩
    · rintro ⟨f', hf', s, s1, s2⟩
      rw [List.mem_cons] at hf'
      rcases hf' with rfl | hf'
      · rw [List.getElem?_eq_getElem hf] at s1
        cases s1
        exact Or.inl s2
      · exact Or.inr ⟨f', hf', s, s1, s2⟩

theorem visited_spec (g : FG) (h : g.Exact) (v : Nat) (hv : v < g.numVars) :
    ∃ l, g.visited v = some l ∧ (∀ x, x ∈ l ↔ ∃ s ∈ g.scopes, v ∈ s ∧ x ∈ s) ∧ ∀ x ∈ l, x < g.numVars := by
  obtain ⟨fs, a1, _, a3⟩ := h.adj v hv
  obtain ⟨l, b1, b2⟩ := variablesOfFactors_spec g fs (fun f hf => by
    obtain ⟨s, s1, _⟩ := (a3 f).mp hf
    exact (List.getElem?_eq_some_iff.mp s1).1)
  have key : ∀ x, x ∈ l ↔ ∃ s ∈ g.scopes, v ∈ s ∧ x ∈ s := by
    intro x
    rw [b2]
    constructor
    · rintro ⟨f, hf, s, s1, s2⟩
      obtain ⟨s', t1, t2⟩ := (a3 f).mp hf
      rw [s1] at t1
      cases t1
      exact ⟨s, List.mem_of_getElem? s1, t2, s2⟩
    · rintro ⟨s, s1, s2, s3⟩
      obtain ⟨f, hf⟩ := List.getElem?_of_mem s1
      exact ⟨f, (a3 f).mpr ⟨s, hf, s2⟩, s, hf, s3⟩
  refine ⟨l, by unfold visited; rw [a1]; exact b1, key, ?_⟩
  intro x hx
  obtain ⟨s, s1, _, s3⟩ := (key x).mp hx
  exact h.range s s1 x s3

theorem isChain_and_nodup {R S : Nat → Nat → Prop} (hRS : ∀ a b, R a b → a ≠ b → S a b) (l : List Nat) (hn : l.Nodup)
    (hc : l.IsChain R) : l.IsChain S := by
  induction l with
  | nil => exact List.IsChain.nil
  | cons a l ih =>
    cases l with
    | nil => exact List.IsChain.singleton _
    | cons b r =>
      rw [List.isChain_cons_cons] at hc ⊢
      have hn' := List.nodup_cons.mp hn
      exact ⟨hRS a b hc.1 (fun e => hn'.1 (by simp [e])), ih hn'.2 hc.2⟩

/-- Paths and walks on identifiers: the general form of the result. -/
theorem search_spec (R : Nat → Nat → Prop) (m s t : Nat) (hs : s < m) (ht : t < m) (nbrs : Nat → Option (List Nat))
    (hn : ∀ c, c < m → ∃ l, nbrs c = some l ∧ (∀ x, x ∈ l ↔ R c x) ∧ ∀ x ∈ l, x < m) :
    (dijkstra nbrs t m (List.range m) ((List.replicate m none).set s (some 0)) (List.replicate m none) = some none ∧
      ∀ q : List Nat, (s :: q).IsChain R → (s :: q).getLast? ≠ some t) ∨
    (∃ prev' p, dijkstra nbrs t m (List.range m) ((List.replicate m none).set s (some 0)) (List.replicate m none) =
        some (some prev') ∧ (s :: p).IsChain R ∧ (s :: p).getLast? = some t ∧ (∀ x ∈ s :: p, x < m) ∧ (s :: p).Nodup ∧
      (∀ q : List Nat, (s :: q).IsChain R → (s :: q).getLast? = some t → p.length ≤ q.length) ∧
      ∀ (actual : Nat → Option Nat) (f : Nat → Nat), (∀ x ∈ p, actual x = some (f x)) → ∀ path : List Nat,
        backtrack actual prev' m t path = some (p.map f ++ path)) := by
  rcases dijkstra_spec R m s t hs nbrs hn m (List.range m) _ _ (DInv.init R m s hs) (by simpa using ht) (by simp) with
    ⟨h1, h2⟩ | ⟨Q', dist', prev', d, h1, h2, h3, h4⟩
  · left
    refine ⟨h1, ?_⟩
    intro q hq hl
    exact h2 _ (walkR_of_list R s q t hq hl)
  · right
    obtain ⟨p, b1, b2, b3, b4, _, b6, b7⟩ := h2.trace d t ht h3
    have hd := h2.dist_lt hs d t ht h3
    refine ⟨prev', p, h1, b2, b3, ?_, b6, ?_, ?_⟩
    · intro x hx
      rcases b4 x hx with h | h
      · exact h
      · rw [h]; exact hs
    · intro q hq hl
      rw [b1]
      exact h4 _ (walkR_of_list R s q t hq hl)
    · intro actual f hf path
      exact b7 actual f hf m path (by omega)

theorem map_isChain {R S : Nat → Nat → Prop} (f : Nat → Nat) (l : List Nat)
    (h : ∀ a ∈ l, ∀ b ∈ l, R a b → S (f a) (f b)) (hc : l.IsChain R) : (l.map f).IsChain S := by
  induction l with
  | nil => exact List.IsChain.nil
  | cons a l ih =>
    cases l with
    | nil => exact List.IsChain.singleton _
    | cons b r =>
      rw [List.isChain_cons_cons] at hc
      rw [List.map_cons, List.map_cons, List.isChain_cons_cons]
      refine ⟨h a (by simp) b (by simp) hc.1, ?_⟩
      have := ih (fun x hx y hy => h x (by simp [hx]) y (by simp [hy])) hc.2
      simpa using this

theorem idxOf?_of_mem (l : List Nat) (x : Nat) (h : x ∈ l) : l.idxOf? x = some (l.idxOf x) := by
  induction l with
  | nil => cases h
  | cons a l ih =>
    rw [List.idxOf?_cons, List.idxOf_cons]
    by_cases e : a = x
    · simp [e]
    · have hx : x ∈ l := by
        rw [List.mem_cons] at h
        exact h.resolve_left (fun h' => e h'.symm)
      have e' : (a == x) = false := by simpa using e
      simp [e', ih hx]

theorem isChain_pred {R : Nat → Nat → Prop} (l : List Nat) : ∀ a, (a :: l).IsChain R → ∀ x ∈ l, ∃ y, R y x := by
  induction l with
  | nil => intro _ _ x hx; cases hx
  | cons b l ih =>
    intro a hc x hx
    rw [List.isChain_cons_cons] at hc
    rw [List.mem_cons] at hx
    rcases hx with rfl | hx
    · exact ⟨a, hc.1⟩
    · exact ih b hc.2 x hx

/-- What the caller may rely on. -/
def Allowed (g : FG) (allowed : List Nat) (x : Nat) : Prop := x < g.numVars ∧ (allowed = [] ∨ x ∈ allowed)

theorem path_head {p : List Nat} {s : Nat} (h : p.head? = some s) : ∃ q, p = s :: q := by
  cases p with
  | nil => cases h
  | cons a q => simp at h; exact ⟨q, by rw [h]⟩

theorem shortestPath_spec (g : FG) (h : g.Exact) (s t : Nat) (hs : s < g.numVars) (ht : t < g.numVars)
    (path allowed : List Nat)
    (ha : allowed = [] ∨ (s ∈ allowed ∧ t ∈ allowed ∧ (∀ x ∈ allowed, x < g.numVars) ∧
      (allowed.length = g.numVars → allowed.Nodup))) :
    ∃ b out, g.shortestPath s t path allowed = some (b, out) ∧
      (b = true → ∃ p, out = p ++ path ∧ ShortestBetween g.scopes (Allowed g allowed) s t p ∧ p.Nodup) ∧
      (b = false → out = path ∧ ∀ p, ¬ PathBetween g.scopes (Allowed g allowed) s t p) := by
  unfold shortestPath
  by_cases hall : allowed.length = 0 ∨ allowed.length = g.numVars
  · rw [if_pos hall, setAt_some _ _ _ (by simpa using hs)]
    simp only
    have hok : ∀ x, x < g.numVars → Allowed g allowed x := by
      intro x hx
      refine ⟨hx, ?_⟩
      rcases ha with ha | ⟨_, _, a3, a4⟩
      · exact Or.inl ha
      · rcases hall with e | e
        · exact Or.inl (List.length_eq_zero_iff.mp e)
        · right
          have : allowed.Perm (List.range g.numVars) :=
            (List.subperm_of_subset (a4 e) (fun y hy => by simpa using a3 y hy)).perm_of_length_le (by simp [e])
          exact this.mem_iff.mpr (by simpa using hx)
    rcases search_spec (fun a b => ∃ sc ∈ g.scopes, a ∈ sc ∧ b ∈ sc) g.numVars s t hs ht g.visited
      (fun c hc => visited_spec g h c hc) with ⟨h1, h2⟩ | ⟨prev', p, h1, h2, h3, h4, h5, h6, h7⟩
    · rw [h1]
      refine ⟨false, path, rfl, by simp, fun _ => ⟨rfl, ?_⟩⟩
      intro p hp
      obtain ⟨q, rfl⟩ := path_head hp.starts
      exact h2 q (hp.steps.imp (fun a b hab => hab.2)) hp.ends
    · rw [h1]
      simp only
      rw [h7 some id (fun x _ => rfl) path]
      refine ⟨true, _, rfl, fun _ => ⟨s :: p, by simp, ⟨⟨rfl, h3, fun x hx => hok x (h4 x hx), ?_⟩, ?_⟩, h5⟩, by simp⟩
      · exact isChain_and_nodup (fun a b hab hne => ⟨hne, hab⟩) _ h5 h2
      · intro q hq
        obtain ⟨q', rfl⟩ := path_head hq.starts
        have := h6 q' (hq.steps.imp (fun a b hab => hab.2)) hq.ends
        simpa using this
  · rw [if_neg hall]
    have hne : allowed ≠ [] := fun e => hall (Or.inl (by simp [e]))
    obtain ⟨hsa, hta, hlt, _⟩ := ha.resolve_left hne
    rw [idxOf?_of_mem _ _ hsa]
    simp only
    have hsl : allowed.idxOf s < allowed.length := List.idxOf_lt_length_of_mem hsa
    have htl : allowed.idxOf t < allowed.length := List.idxOf_lt_length_of_mem hta
    rw [setAt_some _ _ _ (by simpa using hsl), idxOf?_of_mem _ _ hta]
    simp only
    have hget : ∀ x, x ∈ allowed → allowed[allowed.idxOf x]? = some x := by
      intro x hx
      rw [List.getElem?_eq_getElem (List.idxOf_lt_length_of_mem hx), List.getElem_idxOf]
    rcases search_spec
        (fun i j => ∃ a b, allowed[i]? = some a ∧ (∃ sc ∈ g.scopes, a ∈ sc ∧ b ∈ sc) ∧ allowed.idxOf? b = some j)
        allowed.length (allowed.idxOf s) (allowed.idxOf t) hsl htl
        (g.localVisited allowed) (by
          intro c hc
          have hm : allowed[c] ∈ allowed := List.getElem_mem hc
          obtain ⟨l, l1, l2, _⟩ := visited_spec g h allowed[c] (hlt _ hm)
          refine ⟨l.filterMap (fun x => allowed.idxOf? x), ?_, ?_, ?_⟩
          · unfold localVisited
            simp only [List.getElem?_eq_getElem hc, l1, Option.map_some]
          · intro j
            rw [List.mem_filterMap]
            constructor
            · rintro ⟨b, b1, b2⟩
              exact ⟨allowed[c], b, List.getElem?_eq_getElem hc, (l2 b).mp b1, b2⟩
            · rintro ⟨a, b, b1, b2, b3⟩
              rw [List.getElem?_eq_getElem hc] at b1
              cases b1
              exact ⟨b, (l2 b).mpr b2, b3⟩
          · intro j hj
            rw [List.mem_filterMap] at hj
            obtain ⟨b, _, b2⟩ := hj
            rw [List.idxOf?_eq_some_iff] at b2
            exact b2.1) with ⟨h1, h2⟩ | ⟨prev', p, h1, h2, h3, h4, h5, h6, h7⟩
    all_goals
      have toLocal : ∀ q, PathBetween g.scopes (Allowed g allowed) s t (s :: q) →
          (allowed.idxOf s :: q.map allowed.idxOf).IsChain
            (fun i j => ∃ a b, allowed[i]? = some a ∧ (∃ sc ∈ g.scopes, a ∈ sc ∧ b ∈ sc) ∧ allowed.idxOf? b = some j) ∧
          (allowed.idxOf s :: q.map allowed.idxOf).getLast? = some (allowed.idxOf t) := by
        intro q hq
        have hmem : ∀ x ∈ s :: q, x ∈ allowed := fun x hx => ((hq.allowed x hx).2).resolve_left hne
        constructor
        · refine map_isChain (fun x => allowed.idxOf x) (s :: q) ?_ hq.steps
          intro a ha b hb hab
          exact ⟨a, b, hget a (hmem a ha), hab.2, idxOf?_of_mem _ _ (hmem b hb)⟩
        · have : ((s :: q).map (fun x => allowed.idxOf x)).getLast? = some (allowed.idxOf t) := by
            rw [List.getLast?_map, hq.ends]
            rfl
          exact this
    · rw [h1]
      refine ⟨false, path, rfl, by simp, fun _ => ⟨rfl, ?_⟩⟩
      intro p hp
      obtain ⟨q, rfl⟩ := path_head hp.starts
      obtain ⟨c1, c2⟩ := toLocal q hp
      exact h2 _ c1 c2
    · rw [h1]
      simp only
      let f : Nat → Nat := fun c => allowed[c]?.getD 0
      have hf : ∀ x, x < allowed.length → allowed[x]? = some (f x) := by
        intro x hx
        simp [f, List.getElem?_eq_getElem hx]
      rw [h7 (fun c => allowed[c]?) f (fun x hx => hf x (h4 x (by simp [hx]))) path]
      have hfs : f (allowed.idxOf s) = s := Option.some.inj ((hf _ hsl).symm.trans (hget s hsa))
      have hft : f (allowed.idxOf t) = t := Option.some.inj ((hf _ htl).symm.trans (hget t hta))
      have hidx : ∀ i b, allowed.idxOf? b = some i → f i = b := by
        intro i b hb
        rw [List.idxOf?_eq_some_iff] at hb
        obtain ⟨b1, b2, _⟩ := hb
        simp [f, List.getElem?_eq_getElem b1, b2]
      have hmap : s :: p.map f = (allowed.idxOf s :: p).map f := by rw [List.map_cons, hfs]
      have hchain : (s :: p.map f).IsChain (fun a b => ∃ sc ∈ g.scopes, a ∈ sc ∧ b ∈ sc) := by
        rw [hmap]
        refine map_isChain f _ ?_ h2
        rintro i hi j hj ⟨a, b, b1, b2, b3⟩
        rw [hf i (h4 i hi)] at b1
        cases b1
        rw [hidx j b b3]
        exact b2
      have hback : ∀ i ∈ allowed.idxOf s :: p, i = allowed.idxOf (f i) := by
        intro i hi
        rw [List.mem_cons] at hi
        rcases hi with rfl | hi
        · rw [hfs]
        · obtain ⟨j, a, b, _, _, b3⟩ := isChain_pred p _ h2 i hi
          have hb : b ∈ allowed := by
            by_contra hb
            rw [List.idxOf?_eq_none_iff.mpr hb] at b3
            cases b3
          have := hidx i b b3
          rw [idxOf?_of_mem _ _ hb] at b3
          rw [this]
          exact (Option.some.inj b3).symm
      have hnd : (s :: p.map f).Nodup := by
        rw [hmap]
        refine List.Nodup.map_on ?_ h5
        intro i hi j hj hij
        rw [hback i hi, hback j hj, hij]
      refine ⟨true, _, rfl, fun _ => ⟨s :: p.map f, by simp, ⟨⟨rfl, ?_, ?_, ?_⟩, ?_⟩, hnd⟩, by simp⟩
      · rw [hmap, List.getLast?_map, h3, Option.map_some, hft]
      · intro x hx
        rw [hmap, List.mem_map] at hx
        obtain ⟨i, i1, i2⟩ := hx
        have hm : x ∈ allowed := List.mem_of_getElem? (i2 ▸ hf i (h4 i i1))
        exact ⟨hlt x hm, Or.inr hm⟩
      · exact isChain_and_nodup (fun a b hab hne => ⟨hne, hab⟩) _ hnd hchain
      · intro q hq
        obtain ⟨q', rfl⟩ := path_head hq.starts
        obtain ⟨c1, c2⟩ := toLocal q' hq
        have := h6 _ c1 c2
        simpa using this

/-! ### twoHopConnected -/

theorem hops_spec (g : FG) (h : g.Exact) (v w : Nat) (hw : w < g.numVars) (hvw : v ≠ w) (xs : List Nat) :
    ∀ out : List Nat, (∀ x ∈ xs, x < g.numVars) →
      ∃ l, hops g v w xs out = some (out ++ l) ∧ ∀ x, x ∈ l ↔ x ∈ xs ∧ Neighbours g.scopes x w := by
  induction xs with
  | nil => intro out _; exact ⟨[], by simp [hops], by simp⟩
  | cons y ys ih =>
    intro out hx
    unfold hops
    have hcond : y ≠ v ∨ y ≠ w := by
      by_contra hh
      simp only [not_or, not_not] at hh
      exact hvw (hh.1.symm.trans hh.2)
    rw [if_pos hcond]
    obtain ⟨c, c1, c2⟩ := C08_variableVariable g h y w (hx y (by simp)) hw
    rw [c1]
    simp only
    obtain ⟨l, l1, l2⟩ := ih (if c = true then out ++ [y] else out) (fun x hx' => hx x (by simp [hx']))
    by_cases hc : c = true
    · rw [if_pos hc] at l1
      rw [if_pos hc]
      refine ⟨y :: l, by rw [l1]; simp, ?_⟩
      intro x
      rw [List.mem_cons, List.mem_cons, l2]
      constructor
      · rintro (rfl | ⟨h1, h2⟩)
        · exact ⟨Or.inl rfl, c2.mp hc⟩
        · exact ⟨Or.inr h1, h2⟩
      · rintro ⟨rfl | h1, h2⟩
        · exact Or.inl rfl
        · exact Or.inr ⟨h1, h2⟩
    · rw [if_neg hc] at l1
      rw [if_neg hc]
      refine ⟨l, l1, ?_⟩
      intro x
      rw [List.mem_cons, l2]
      constructor
      · rintro ⟨h1, h2⟩; exact ⟨Or.inr h1, h2⟩
      · rintro ⟨rfl | h1, h2⟩
        · exact absurd (c2.mpr h2) hc
        · exact ⟨h1, h2⟩

theorem twoHop_spec (g : FG) (h : g.Exact) (v w : Nat) (hv : v < g.numVars) (hw : w < g.numVars) :
    ∃ b out, g.twoHopConnected v w = some (b, out) ∧ (b = true ↔ out ≠ []) ∧
      ∀ x, x ∈ out ↔ v ≠ w ∧ (∃ s ∈ g.scopes, v ∈ s ∧ x ∈ s) ∧ Neighbours g.scopes x w := by
  unfold twoHopConnected
  by_cases hvw : v = w
  · rw [if_neg (by simp [hvw])]
    exact ⟨false, [], rfl, by simp, by simp [hvw]⟩
  · rw [if_pos hvw]
    obtain ⟨l, l1, l2, l3⟩ := visited_spec g h v hv
    rw [l1]
    simp only
    obtain ⟨o, o1, o2⟩ := hops_spec g h v w hw hvw l [] l3
    rw [o1]
    refine ⟨_, _, rfl, by simp, ?_⟩
    intro x
    rw [List.nil_append, o2, l2]
    simp [hvw]

/-! ### isGrid -/

/-- A matrix of `d0` rows of length `d1` with entries below `n`. -/
structure MInv (n d0 d1 : Nat) (m : List (List Nat)) : Prop where
  rows : m.length = d0
  cols : ∀ r ∈ m, r.length = d1
  entries : ∀ r ∈ m, ∀ x ∈ r, x < n

theorem setCell_spec {n d0 d1 : Nat} {m : List (List Nat)} (h : MInv n d0 d1 m) (i j x : Nat) (hi : i < d0) (hj : j < d1)
    (hx : x < n) : ∃ m', setCell m i j x = some m' ∧ MInv n d0 d1 m' := by
  have him : i < m.length := by rw [h.rows]; exact hi
  have hr := h.cols _ (List.getElem_mem him)
  refine ⟨m.set i (m[i].set j x), ?_, ?_, ?_, ?_⟩
  · unfold setCell
    rw [List.getElem?_eq_getElem him]
    simp only
    rw [setAt_some _ _ _ (by omega)]
    rfl
  · simp [h.rows]
  · intro r hr'
    rcases List.mem_or_eq_of_mem_set hr' with h' | rfl
    · exact h.cols r h'
    · simp [hr]
  · intro r hr' y hy
    rcases List.mem_or_eq_of_mem_set hr' with h' | rfl
    · exact h.entries r h' y hy
    · rcases List.mem_or_eq_of_mem_set hy with h' | rfl
      · exact h.entries _ (List.getElem_mem him) y h'
      · exact hx

theorem fillColumn_spec {n d0 d1 : Nat} (j : Nat) (hj : j < d1) (xs : List Nat) :
    ∀ (i : Nat) (m : List (List Nat)), MInv n d0 d1 m → i + xs.length ≤ d0 → (∀ x ∈ xs, x < n) →
      ∃ m', fillColumn j xs i m = some m' ∧ MInv n d0 d1 m' := by
  induction xs with
  | nil => intro i m h _ _; exact ⟨m, rfl, h⟩
  | cons x xs ih =>
    intro i m h hl hx
    simp at hl
    obtain ⟨m', a1, a2⟩ := setCell_spec h i j x (by omega) hj (hx x (by simp))
    obtain ⟨m'', b1, b2⟩ := ih (i + 1) m' a2 (by omega) (fun y hy => hx y (by simp [hy]))
    exact ⟨m'', by simp [fillColumn, a1, b1], b2⟩

theorem fillRow_spec {n d0 d1 : Nat} (i : Nat) (hi : i < d0) (xs : List Nat) :
    ∀ (j : Nat) (m : List (List Nat)), MInv n d0 d1 m → j + xs.length ≤ d1 → (∀ x ∈ xs, x < n) →
      ∃ m', fillRow i xs j m = some m' ∧ MInv n d0 d1 m' := by
  induction xs with
  | nil => intro j m h _ _; exact ⟨m, rfl, h⟩
  | cons x xs ih =>
    intro j m h hl hx
    simp at hl
    obtain ⟨m', a1, a2⟩ := setCell_spec h i j x hi (by omega) (hx x (by simp))
    obtain ⟨m'', b1, b2⟩ := ih (j + 1) m' a2 (by omega) (fun y hy => hx y (by simp [hy]))
    exact ⟨m'', by simp [fillRow, a1, b1], b2⟩

theorem cell_spec {n d0 d1 : Nat} {m : List (List Nat)} (h : MInv n d0 d1 m) (i j : Nat) (hi : i < d0) (hj : j < d1) :
    ∃ x, cell m i j = some x ∧ x < n := by
  have him : i < m.length := by rw [h.rows]; exact hi
  have hr := h.cols _ (List.getElem_mem him)
  have hjm : j < m[i].length := by omega
  refine ⟨m[i][j], ?_, h.entries _ (List.getElem_mem him) _ (List.getElem_mem hjm)⟩
  unfold cell
  rw [List.getElem?_eq_getElem him, Option.bind_some, List.getElem?_eq_getElem hjm]

theorem fillInner_spec (g : FG) (h : g.Exact) {d0 d1 : Nat} {m : List (List Nat)} (hm : MInv g.numVars d0 d1 m) (i j : Nat)
    (hi : i < d0) (hj : j < d1) :
    ∃ r, fillInner g i j m = some r ∧ ∀ m', r = some m' → MInv g.numVars d0 d1 m' := by
  obtain ⟨a, a1, a2⟩ := cell_spec hm (i - 1) j (by omega) hj
  obtain ⟨b, b1, b2⟩ := cell_spec hm i (j - 1) hi (by omega)
  obtain ⟨c, c1, c2⟩ := cell_spec hm (i - 1) (j - 1) (by omega) (by omega)
  obtain ⟨f, out, t1, _, t3⟩ := twoHop_spec g h a b a2 b2
  have hout : ∀ x ∈ out, x < g.numVars := by
    intro x hx
    obtain ⟨_, ⟨s, s1, _, s3⟩, _⟩ := (t3 x).mp hx
    exact h.range s s1 x s3
  unfold fillInner
  rw [a1, b1, c1]
  simp only
  rw [t1]
  match f, out, hout with
  | true, x0 :: x1 :: rest, hout =>
    simp only
    have hx : (if x0 ≠ c then x0 else x1) < g.numVars := by
      split
      · exact hout x0 (by simp)
      · exact hout x1 (by simp)
    obtain ⟨m', e1, e2⟩ := setCell_spec hm i j _ hi hj hx
    rw [e1]
    exact ⟨some m', rfl, fun m'' e => by cases e; exact e2⟩
  | true, [], _ => exact ⟨none, rfl, by simp⟩
  | true, [_], _ => exact ⟨none, rfl, by simp⟩
  | false, _, _ => exact ⟨none, by simp, by simp⟩

theorem fillInners_spec (g : FG) (h : g.Exact) {d0 d1 : Nat} (ps : List (Nat × Nat)) :
    ∀ m : List (List Nat), MInv g.numVars d0 d1 m → (∀ p ∈ ps, p.1 < d0 ∧ p.2 < d1) →
      ∃ r, fillInners g ps m = some r ∧ ∀ m', r = some m' → MInv g.numVars d0 d1 m' := by
  induction ps with
  | nil => intro m hm _; exact ⟨some m, rfl, fun m' e => by cases e; exact hm⟩
  | cons p ps ih =>
    intro m hm hp
    obtain ⟨r, r1, r2⟩ := fillInner_spec g h hm p.1 p.2 (hp p (by simp)).1 (hp p (by simp)).2
    unfold fillInners
    rw [r1]
    cases r with
    | none => exact ⟨none, rfl, by simp⟩
    | some m' => exact ih m' (r2 m' rfl) (fun q hq => hp q (by simp [hq]))

theorem innerCells_lt (d0 d1 : Nat) : ∀ p ∈ innerCells d0 d1, p.1 < d0 ∧ p.2 < d1 := by
  rintro ⟨i, j⟩ hp
  unfold innerCells at hp
  rw [List.mem_flatMap] at hp
  obtain ⟨i', hi, hp⟩ := hp
  rw [List.mem_map] at hp
  obtain ⟨j', hj, e⟩ := hp
  cases e
  have h1 := List.mem_range.mp (List.mem_of_mem_drop hi)
  have h2 := List.mem_range.mp (List.mem_of_mem_drop hj)
  simp
  omega

theorem fillGrid_spec (g : FG) (h : g.Exact) (p0 p1 q0 q1 : List Nat) (h0 : p0 ≠ []) (h1 : p1 ≠ [])
    (e0 : q0.length = p1.length) (e1 : q1.length = p0.length) (hlt : ∀ x, x ∈ p0 ∨ x ∈ p1 ∨ x ∈ q0 ∨ x ∈ q1 → x < g.numVars) :
    ∃ r, fillGrid g p0 p1 q0 q1 = some r ∧ ∀ m, r = some m → MInv g.numVars p0.length p1.length m := by
  have l0 := List.length_pos_iff.mpr h0
  have l1 := List.length_pos_iff.mpr h1
  have hn : 0 < g.numVars := by
    obtain ⟨a, ha⟩ := List.exists_mem_of_ne_nil _ h0
    have := hlt a (Or.inl ha)
    omega
  have hz : MInv g.numVars p0.length p1.length (List.replicate p0.length (List.replicate p1.length 0)) := by
    refine ⟨by simp, ?_, ?_⟩
    · intro r hr; rw [List.eq_of_mem_replicate hr]; simp
    · intro r hr x hx
      rw [List.eq_of_mem_replicate hr] at hx
      rw [List.eq_of_mem_replicate hx]
      exact hn
  obtain ⟨m1, a1, a2⟩ := fillColumn_spec 0 l1 p0 0 _ hz (by simp) (fun x hx => hlt x (Or.inl hx))
  obtain ⟨m2, b1, b2⟩ := fillRow_spec 0 l0 p1 0 _ a2 (by simp) (fun x hx => hlt x (Or.inr (Or.inl hx)))
  obtain ⟨m3, c1, c2⟩ := fillRow_spec (p0.length - 1) (by omega) q0 0 _ b2 (by simp [e0])
    (fun x hx => hlt x (Or.inr (Or.inr (Or.inl hx))))
  obtain ⟨m4, d1, d2⟩ := fillColumn_spec (p1.length - 1) (by omega) q1 0 _ c2 (by simp [e1])
    (fun x hx => hlt x (Or.inr (Or.inr (Or.inr hx))))
  obtain ⟨r, r1, r2⟩ := fillInners_spec g h (innerCells p0.length p1.length) m4 d2 (innerCells_lt _ _)
  refine ⟨r, ?_, r2⟩
  unfold fillGrid
  rw [a1]; simp only
  rw [b1]; simp only
  rw [c1]; simp only
  rw [d1]; simp only
  exact r1

theorem hullPath_spec (g : FG) (h : g.Exact) (hull : List Nat) (hn : hull.Nodup) (hl : ∀ x ∈ hull, x < g.numVars) (s t : Nat)
    (hs : s ∈ hull) (ht : t ∈ hull) :
    ∃ b out, g.shortestPath s t [] hull = some (b, out) ∧ (b = true → out ≠ [] ∧ ∀ x ∈ out, x < g.numVars) := by
  obtain ⟨b, out, h1, h2, _⟩ := shortestPath_spec g h s t (hl s hs) (hl t ht) [] hull (Or.inr ⟨hs, ht, hl, fun _ => hn⟩)
  refine ⟨b, out, h1, ?_⟩
  intro hb
  obtain ⟨p, p1, ⟨p2, _⟩, _⟩ := h2 hb
  rw [List.append_nil] at p1
  subst p1
  refine ⟨?_, fun x hx => (p2.allowed x hx).1⟩
  intro e
  have := p2.starts
  rw [e] at this
  cases this

/-- A rectangular matrix of variables. -/
def GridShape (n : Nat) (m : List (List Nat)) : Prop := m ≠ [] ∧ ∃ c, 0 < c ∧ MInv n m.length c m

theorem gridFrom_spec (g : FG) (h : g.Exact) (hull : List Nat) (hn : hull.Nodup) (hl : ∀ x ∈ hull, x < g.numVars)
    (a b d : Nat) (ha : a ∈ hull) (hb : b ∈ hull) (hd : d ∈ hull) (pa pb : List Nat) (h0 : pa ≠ []) (h1 : pb ≠ [])
    (hpa : ∀ x ∈ pa, x < g.numVars) (hpb : ∀ x ∈ pb, x < g.numVars) :
    ∃ r, gridFrom g hull a b d pa pb = some r ∧ ∀ m, r = some m → GridShape g.numVars m := by
  unfold gridFrom
  obtain ⟨f1, qa, a1, a2⟩ := hullPath_spec g h hull hn hl a d ha hd
  obtain ⟨f2, qb, b1, b2⟩ := hullPath_spec g h hull hn hl b d hb hd
  rw [a1]
  cases f1 with
  | false => exact ⟨none, rfl, by simp⟩
  | true =>
    simp only
    rw [b1]
    cases f2 with
    | false => exact ⟨none, rfl, by simp⟩
    | true =>
      simp only
      by_cases e1 : pa.length = qb.length
      · rw [if_neg (by simp [e1])]
        by_cases e2 : pb.length = qa.length
        · rw [if_neg (by simp [e2])]
          obtain ⟨r, r1, r2⟩ := fillGrid_spec g h pa pb qa qb h0 h1 e2.symm e1.symm (by
            rintro x (hx | hx | hx | hx)
            · exact hpa x hx
            · exact hpb x hx
            · exact (a2 rfl).2 x hx
            · exact (b2 rfl).2 x hx)
          refine ⟨r, r1, ?_⟩
          intro m hm
          have := r2 m hm
          refine ⟨?_, pb.length, List.length_pos_iff.mpr h1, ⟨rfl, this.cols, this.entries⟩⟩
          intro e
          have hr := this.rows
          rw [e] at hr
          exact h0 (List.length_eq_zero_iff.mp hr.symm)
        · rw [if_pos e2]
          exact ⟨none, rfl, by simp⟩
      · rw [if_pos e1]
        exact ⟨none, rfl, by simp⟩

theorem diagonal_eq (p1 p2 p3 : List Nat) :
    diagonal [p1, p2, p3] [1, 2, 3] 1 = some (if p3.length > p2.length then 3 else 1) := by
  simp [diagonal]

theorem gridOfCorners_spec (g : FG) (h : g.Exact) (hull : List Nat) (hn : hull.Nodup) (hl : ∀ x ∈ hull, x < g.numVars)
    (c0 c1 c2 c3 : Nat) (h0 : c0 ∈ hull) (h1 : c1 ∈ hull) (h2 : c2 ∈ hull) (h3 : c3 ∈ hull) :
    ∃ r, gridOfCorners g hull c0 c1 c2 c3 = some r ∧ ∀ m, r = some m → GridShape g.numVars m := by
  unfold gridOfCorners
  obtain ⟨f1, p1, a1, a2⟩ := hullPath_spec g h hull hn hl c0 c1 h0 h1
  obtain ⟨f2, p2, b1, b2⟩ := hullPath_spec g h hull hn hl c0 c2 h0 h2
  obtain ⟨f3, p3, d1, d2⟩ := hullPath_spec g h hull hn hl c0 c3 h0 h3
  rw [a1]
  cases f1 with
  | false => exact ⟨none, rfl, by simp⟩
  | true =>
    simp only
    rw [b1]
    cases f2 with
    | false => exact ⟨none, rfl, by simp⟩
    | true =>
      simp only
      rw [d1]
      cases f3 with
      | false => exact ⟨none, rfl, by simp⟩
      | true =>
        simp only
        rw [diagonal_eq]
        simp only
        by_cases hc : p3.length > p2.length
        · rw [if_pos hc, if_neg (by decide), if_neg (by decide)]
          exact gridFrom_spec g h hull hn hl c1 c2 c3 h1 h2 h3 p1 p2 (a2 rfl).1 (b2 rfl).1 (a2 rfl).2 (b2 rfl).2
        · rw [if_neg hc, if_pos rfl]
          exact gridFrom_spec g h hull hn hl c2 c3 c1 h2 h3 h1 p2 p3 (b2 rfl).1 (d2 rfl).1 (b2 rfl).2 (d2 rfl).2

theorem findCorners_spec (g : FG) (h : g.Exact) (is : List Nat) :
    ∀ corners hull : List Nat, (∀ i ∈ is, i < g.numVars) → (hull ++ is).Nodup → (∀ x ∈ hull, x < g.numVars) →
      (∀ x ∈ corners, x ∈ hull) →
      ∃ r, findCorners g is corners hull = some r ∧
        ∀ cs hu, r = some (cs, hu) → hu.Nodup ∧ (∀ x ∈ hu, x < g.numVars) ∧ ∀ x ∈ cs, x ∈ hu := by
  induction is with
  | nil =>
    intro corners hull _ h1 h2 h3
    refine ⟨some (corners, hull), rfl, ?_⟩
    intro cs hu e
    cases e
    exact ⟨by simpa using h1, h2, h3⟩
  | cons i is ih =>
    intro corners hull h0 h1 h2 h3
    have hi := h0 i (by simp)
    have h0' : ∀ j ∈ is, j < g.numVars := fun j hj => h0 j (by simp [hj])
    have h1' : (hull ++ is).Nodup := by
      refine h1.sublist ?_
      exact List.Sublist.append (List.Sublist.refl _) (List.sublist_cons_self i is)
    have h1'' : (hull ++ [i] ++ is).Nodup := by simpa using h1
    have h2' : ∀ x ∈ hull ++ [i], x < g.numVars := by
      intro x hx
      rw [List.mem_append] at hx
      rcases hx with hx | hx
      · exact h2 x hx
      · simp at hx; exact hx ▸ hi
    unfold findCorners
    rw [count_linksOf g h i hi]
    simp only
    split
    · split
      · exact ⟨none, rfl, by simp⟩
      · rw [if_pos (by omega)]
        refine ih (corners ++ [i]) (hull ++ [i]) h0' h1'' h2' ?_
        intro x hx
        rw [List.mem_append] at hx ⊢
        rcases hx with hx | hx
        · exact Or.inl (h3 x hx)
        · exact Or.inr hx
    · split
      · exact ih corners (hull ++ [i]) h0' h1'' h2' (fun x hx => by simp [h3 x hx])
      · split
        · exact ⟨none, rfl, by simp⟩
        · exact ih corners hull h0' h1' h2 h3

theorem isGrid_spec (g : FG) (h : g.Exact) :
    ∃ r, g.isGrid = some r ∧
      ∀ m, r = some m → 0 < g.numVars ∧ (∀ s ∈ g.scopes, s.length ≤ 2) ∧ GridShape g.numVars m := by
  unfold isGrid
  by_cases hn : g.numVars = 0
  · rw [if_pos hn]; exact ⟨none, rfl, by simp⟩
  rw [if_neg hn]
  by_cases hord : g.maxFactorOrderLe 2 = false
  · rw [if_pos hord]; exact ⟨none, rfl, by simp⟩
  rw [if_neg hord]
  have hord' : ∀ s ∈ g.scopes, s.length ≤ 2 := (C13_maxFactorOrderLe g 2).mp (by simpa using hord)
  by_cases h1 : g.numVars = 1
  · rw [if_pos h1]
    refine ⟨_, rfl, ?_⟩
    intro m hm
    cases hm
    refine ⟨by omega, hord', by simp, 1, by decide, ⟨rfl, by simp, ?_⟩⟩
    simp [h1]
  rw [if_neg h1]
  obtain ⟨b, out, c1, c2, _⟩ := isChain_spec g h []
  rw [c1]
  cases b with
  | true =>
    refine ⟨_, rfl, ?_⟩
    intro m hm
    cases hm
    have hc := c2 rfl
    refine ⟨by omega, hord', by simp, out.length, ?_, ⟨rfl, by simp, ?_⟩⟩
    · rw [hc.all.length_eq]; simp; omega
    · intro r hr x hx
      simp at hr
      subst hr
      simpa using hc.all.mem_iff.mp hx
  | false =>
    simp only
    obtain ⟨r, r1, r2⟩ := findCorners_spec g h (List.range g.numVars) [] [] (by simp) (by simpa using List.nodup_range)
      (by simp) (by simp)
    rw [r1]
    match r, r2 with
    | none, _ => exact ⟨none, rfl, by simp⟩
    | some ([], _), _ => exact ⟨none, rfl, by simp⟩
    | some ([_], _), _ => exact ⟨none, rfl, by simp⟩
    | some ([_, _], _), _ => exact ⟨none, rfl, by simp⟩
    | some ([_, _, _], _), _ => exact ⟨none, rfl, by simp⟩
    | some (_ :: _ :: _ :: _ :: _ :: _, _), _ => exact ⟨none, rfl, by simp⟩
    | some ([k0, k1, k2, k3], hull), r2 =>
      obtain ⟨u1, u2, u3⟩ := r2 _ _ rfl
      obtain ⟨r, s1, s2⟩ := gridOfCorners_spec g h hull u1 u2 k0 k1 k2 k3 (u3 _ (by simp)) (u3 _ (by simp)) (u3 _ (by simp))
        (u3 _ (by simp))
      exact ⟨r, s1, fun m hm => ⟨by omega, hord', s2 m hm⟩⟩

end FG
end OpenGM
