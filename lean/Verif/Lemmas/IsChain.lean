import Verif.Model.FactorGraphPaths
import Verif.Spec.Paths
import Verif.Props.FactorGraph
import Verif.Lemmas.ShortestPath
import Mathlib.Data.List.Perm.Lattice
/-! Lemmas for C77: isChain. -/
namespace OpenGM
namespace FG
open Spec

/-- The test for a factor of order two of variable `v`. -/
def isLinkOf (v : Nat) (s : List Nat) : Bool := decide (v ∈ s) && decide (s.length = 2)

/-- The factors of order two of `v`. -/
def linksOf (g : FG) (v : Nat) : List Nat :=
  (List.range g.scopes.length).filter (fun f => (g.scopes[f]?).any (isLinkOf v))

theorem mem_linksOf (g : FG) (v f : Nat) :
    f ∈ linksOf g v ↔ ∃ s : List Nat, g.scopes[f]? = some s ∧ v ∈ s ∧ s.length = 2 := by
  unfold linksOf
  rw [List.mem_filter, List.mem_range]
  constructor
  · rintro ⟨h1, h2⟩
    rw [List.getElem?_eq_getElem h1] at h2 ⊢
    simp [isLinkOf] at h2
    exact ⟨_, rfl, h2⟩
  · rintro ⟨s, h1, h2⟩
    refine ⟨(List.getElem?_eq_some_iff.mp h1).1, ?_⟩
    simp [h1, isLinkOf, h2]

theorem linksOf_sorted (g : FG) (v : Nat) : (linksOf g v).Pairwise (· < ·) :=
  List.Pairwise.filter _ List.pairwise_lt_range

theorem sorted_unique {l l' : List Nat} (h : l.Pairwise (· < ·)) (h' : l'.Pairwise (· < ·)) (hm : ∀ x, x ∈ l ↔ x ∈ l') :
    l = l' := by
  have p : l.Perm l' := (List.perm_ext_iff_of_nodup (h.imp Nat.ne_of_lt) (h'.imp Nat.ne_of_lt)).mpr hm
  exact p.eq_of_pairwise (fun a b _ _ h1 h2 => by omega) h h'

theorem count_linksOf (g : FG) (h : g.Exact) (v : Nat) (hv : v < g.numVars) :
    g.numberOfNthOrderFactorsOfVariable v 2 = some (linksOf g v).length := by
  obtain ⟨l, a1, a2, a3⟩ := C51_nthOrder_count g h v 2 hv
  rw [a1, sorted_unique a2 (linksOf_sorted g v) (fun f => by rw [a3, mem_linksOf])]

theorem ids_linksOf (g : FG) (h : g.Exact) (v : Nat) (hv : v < g.numVars) :
    g.nthOrderFactorsOfVariable v 2 = some ((linksOf g v).length, (linksOf g v).reverse) := by
  obtain ⟨l, a1, a2, a3⟩ := C51_nthOrder_ids g h v 2 hv
  have : l.reverse = linksOf g v := sorted_unique (by rw [List.pairwise_reverse]; exact a2) (linksOf_sorted g v)
    (fun f => by rw [List.mem_reverse, a3, mem_linksOf])
  rw [a1, ← this]
  simp

/-- The scope of a factor of order two. -/
theorem other_spec (g : FG) (h : g.Exact) (v f : Nat) (hf : f ∈ linksOf g v) :
    ∃ w, g.secondVariableOfSecondOrderFactor v f = some w ∧ w ≠ v ∧ w < g.numVars ∧
      g.scopes[f]? = some [min v w, max v w] := by
  obtain ⟨s, h1, h2, h3⟩ := (mem_linksOf g v f).mp hf
  match s, h3 with
  | [a, b], _ =>
    have hm := List.mem_of_getElem? h1
    have hs := h.sorted _ hm
    have hab : a < b := by simpa using hs
    obtain ⟨c1, c2⟩ := C51_secondVariable g h f a b h1
    simp at h2
    rcases h2 with rfl | rfl
    · refine ⟨b, c1, by omega, h.range _ hm b (by simp), ?_⟩
      rw [h1, Nat.min_eq_left (by omega), Nat.max_eq_right (by omega)]
    · refine ⟨a, c2, by omega, h.range _ hm a (by simp), ?_⟩
      rw [h1, Nat.min_eq_right (by omega), Nat.max_eq_left (by omega)]

theorem mem_pair (x v w : Nat) : x ∈ [min v w, max v w] ↔ x = v ∨ x = w := by
  simp only [List.mem_cons, List.not_mem_nil, or_false]
  omega

theorem pair_comm (v w : Nat) : [min v w, max v w] = [min w v, max w v] := by
  rw [Nat.min_comm, Nat.max_comm]

theorem mem_linksOf_pair (g : FG) (f v w x : Nat) (hf : g.scopes[f]? = some [min v w, max v w]) :
    f ∈ linksOf g x ↔ x = v ∨ x = w := by
  rw [mem_linksOf]
  constructor
  · rintro ⟨s, h1, h2, _⟩
    rw [hf] at h1
    cases h1
    exact (mem_pair x v w).mp h2
  · intro h
    exact ⟨_, hf, (mem_pair x v w).mpr h, rfl⟩

theorem links_mem (l : List Nat) : ∀ s ∈ links l, ∀ x ∈ s, x ∈ l := by
  induction l with
  | nil => simp [links]
  | cons a l ih =>
    cases l with
    | nil => simp [links]
    | cons b r =>
      intro s hs x hx
      simp only [links, List.mem_cons] at hs
      rcases hs with rfl | hs
      · rw [mem_pair] at hx
        rcases hx with rfl | rfl <;> simp
      · exact List.mem_cons_of_mem _ (ih s hs x hx)

theorem links_length2 (l : List Nat) : ∀ s ∈ links l, s.length = 2 := by
  induction l with
  | nil => simp [links]
  | cons a l ih =>
    cases l with
    | nil => simp [links]
    | cons b r =>
      intro s hs
      simp only [links, List.mem_cons] at hs
      rcases hs with rfl | hs
      · rfl
      · exact ih s hs

theorem links_nodup (l : List Nat) (h : l.Nodup) : (links l).Nodup := by
  induction l with
  | nil => simp [links]
  | cons a l ih =>
    cases l with
    | nil => simp [links]
    | cons b r =>
      rw [List.nodup_cons] at h
      simp only [links]
      rw [List.nodup_cons]
      refine ⟨fun hm => h.1 ?_, ih h.2⟩
      exact links_mem _ _ hm a ((mem_pair a a b).mpr (Or.inl rfl))

theorem links_concat (l : List Nat) (a b : Nat) : links (l ++ [a] ++ [b]) = links (l ++ [a]) ++ [[min a b, max a b]] := by
  induction l with
  | nil => rfl
  | cons c l ih =>
    cases l with
    | nil => rfl
    | cons d r =>
      have : links (c :: d :: r ++ [a] ++ [b]) = [min c d, max c d] :: links (d :: r ++ [a] ++ [b]) := rfl
      rw [this, ih]
      rfl

theorem links_reverse (l : List Nat) : links l.reverse = (links l).reverse := by
  induction l with
  | nil => rfl
  | cons a l ih =>
    cases l with
    | nil => rfl
    | cons b r =>
      rw [List.reverse_cons, List.reverse_cons, links_concat]
      rw [List.reverse_cons] at ih
      rw [ih]
      simp [links, Nat.min_comm, Nat.max_comm]

/-- Filtering by position. -/
theorem filter_by_index (l : List (List Nat)) (p : List Nat → Bool) :
    ((List.range l.length).filter (fun i => (l[i]?).any p)).filterMap (fun i => l[i]?) = l.filter p := by
  induction l using List.reverseRecOn with
  | nil => rfl
  | append_singleton l x ih =>
    have e : ∀ i ∈ List.range l.length, (l ++ [x])[i]? = l[i]? := by
      intro i hi
      rw [List.getElem?_append_left (List.mem_range.mp hi)]
    rw [List.length_append, List.length_singleton, List.range_succ, List.filter_append, List.filterMap_append,
      List.filter_append]
    congr 1
    · rw [← ih]
      have e1 : (List.range l.length).filter (fun i => ((l ++ [x])[i]?).any p) =
          (List.range l.length).filter (fun i => (l[i]?).any p) := List.filter_congr (fun i hi => by rw [e i hi])
      rw [e1]
      refine List.filterMap_congr ?_
      intro i hi
      exact e i (List.mem_of_mem_filter hi)
    · by_cases hp : p x <;> simp [hp]

theorem linksOf_length (g : FG) (v : Nat) : (linksOf g v).length = g.scopes.countP (isLinkOf v) := by
  rw [List.countP_eq_length_filter, ← filter_by_index g.scopes (isLinkOf v)]
  unfold linksOf
  have : ∀ l : List Nat, (∀ i ∈ l, i < g.scopes.length) → (l.filterMap (fun i => g.scopes[i]?)).length = l.length := by
    intro l
    induction l with
    | nil => intro _; rfl
    | cons a l ih =>
      intro h
      rw [List.filterMap_cons_some (List.getElem?_eq_getElem (h a (by simp)))]
      simp [ih (fun i hi => h i (by simp [hi]))]
  rw [this]
  intro i hi
  exact List.mem_range.mp (List.mem_of_mem_filter hi)

theorem findEnds_spec (g : FG) (h : g.Exact) (is : List Nat) :
    ∀ found : List Nat, found.length ≤ 2 → (∀ i ∈ is, i < g.numVars) →
      findEnds g is found =
        some (if (found ++ is.filter (fun i => (linksOf g i).length = 1)).length ≤ 2 then
          some (found ++ is.filter (fun i => (linksOf g i).length = 1)) else none) := by
  induction is with
  | nil => intro found hf _; simp [findEnds, hf]
  | cons i is ih =>
    intro found hf hi
    unfold findEnds
    rw [count_linksOf g h i (hi i (by simp))]
    simp only
    have hi' : ∀ j ∈ is, j < g.numVars := fun j hj => hi j (by simp [hj])
    by_cases hc : (linksOf g i).length = 1
    · rw [if_pos hc]
      have hfil : (i :: is).filter (fun i => decide ((linksOf g i).length = 1)) =
          i :: is.filter (fun i => decide ((linksOf g i).length = 1)) := by rw [List.filter_cons_of_pos (by simpa using hc)]
      by_cases hl : found.length > 1
      · rw [if_pos hl, hfil, if_neg (by simp; omega)]
      · rw [if_neg hl, ih (found ++ [i]) (by simp; omega) hi', hfil]
        simp
    · rw [if_neg hc, ih found hf hi', List.filter_cons_of_neg (by simpa using hc)]

theorem chainStart_spec (g : FG) (h : g.Exact) (v : Nat) (fs : List Nat) :
    ∀ acc : Option Nat, (∀ f ∈ fs, ∃ s : List Nat, g.scopes[f]? = some s ∧ v ∈ s) →
      ∃ r, chainStart g v fs acc = some r ∧
        ((r = acc ∧ ∀ f ∈ fs, f ∉ linksOf g v) ∨
          ∃ f w, f ∈ linksOf g v ∧ r = some w ∧ g.secondVariableOfSecondOrderFactor v f = some w) := by
  induction fs with
  | nil => intro acc _; exact ⟨acc, rfl, Or.inl ⟨rfl, by simp⟩⟩
  | cons f fs ih =>
    intro acc hf
    obtain ⟨s, h1, h2⟩ := hf f (by simp)
    have hf' : ∀ f ∈ fs, ∃ s : List Nat, g.scopes[f]? = some s ∧ v ∈ s := fun f' hf' => hf f' (by simp [hf'])
    unfold chainStart
    rw [h1]
    simp only
    by_cases hl : s.length = 2
    · rw [if_pos hl]
      have hm : f ∈ linksOf g v := (mem_linksOf g v f).mpr ⟨s, h1, h2, hl⟩
      obtain ⟨w, c1, _⟩ := other_spec g h v f hm
      rw [c1]
      simp only
      obtain ⟨r, a1, a2⟩ := ih (some w) hf'
      refine ⟨r, a1, Or.inr ?_⟩
      rcases a2 with ⟨a2, _⟩ | a2
      · exact ⟨f, w, hm, a2, c1⟩
      · exact a2
    · rw [if_neg hl]
      obtain ⟨r, a1, a2⟩ := ih acc hf'
      refine ⟨r, a1, ?_⟩
      rcases a2 with ⟨a2, a3⟩ | a2
      · refine Or.inl ⟨a2, ?_⟩
        intro f' hf''
        rw [List.mem_cons] at hf''
        rcases hf'' with rfl | hf''
        · rw [mem_linksOf]
          rintro ⟨s', b1, _, b3⟩
          rw [h1] at b1
          cases b1
          exact hl b3
        · exact a3 f' hf''
      · exact Or.inr a2

/-- The state of the traversal: `y` is the successor, `L` the variables traversed (last one first), `F` the factors used. -/
structure WalkInv (g : FG) (e0 e1 y : Nat) (L F : List Nat) : Prop where
  nodup : (y :: L).Nodup
  lt : ∀ x ∈ y :: L, x < g.numVars
  used : F.map (fun f => g.scopes[f]?) = (links (y :: L)).map some
  closed : ∀ x ∈ L, ∀ f ∈ linksOf g x, f ∈ F
  start : e0 ∈ L
  notEnd : e1 ∉ L

/-- One round of the traversal. -/
theorem WalkInv.step {g : FG} (h : g.Exact) {e0 e1 y pred : Nat} {L F : List Nat} (hw : WalkInv g e0 e1 y (pred :: L) F)
    (hends : ∀ v, v < g.numVars → (linksOf g v).length = 1 → v = e0 ∨ v = e1) (hy : y ≠ e1)
    (hdeg : (linksOf g y).length ≤ 2) :
    ∃ z f, chainStep g pred y (linksOf g y).reverse [0, 1] = some (y, z) ∧
      WalkInv g e0 e1 z (y :: pred :: L) (f :: F) := by
  have hu := hw.used
  simp only [links, List.map_cons] at hu
  cases F with
  | nil => simp at hu
  | cons f0 F' =>
    simp only [List.map_cons, List.cons.injEq] at hu
    obtain ⟨hf0, hF'⟩ := hu
    have hylt := hw.lt y (by simp)
    have hf0y : f0 ∈ linksOf g y := (mem_linksOf_pair g f0 y pred y hf0).mpr (Or.inl rfl)
    have hyn : y ∉ pred :: L := (List.nodup_cons.mp hw.nodup).1
    have h1 : (linksOf g y).length ≠ 1 := by
      intro h1
      rcases hends y hylt h1 with rfl | rfl
      · exact hyn hw.start
      · exact hy rfl
    have hpos : 0 < (linksOf g y).length := List.length_pos_of_mem hf0y
    have hnd : (linksOf g y).Nodup := (linksOf_sorted g y).imp Nat.ne_of_lt
    obtain ⟨p0, hp0, hp0y, _, hp0s⟩ := other_spec g h y f0 hf0y
    have hpp : p0 = pred :=
      ((mem_linksOf_pair g f0 y pred p0 hf0).mp ((mem_linksOf_pair g f0 y p0 p0 hp0s).mpr (Or.inr rfl))).resolve_left hp0y
    subst hpp
    -- the other factor
    have key : ∀ q, q ∈ linksOf g y → q ≠ f0 → (∀ f ∈ linksOf g y, f = f0 ∨ f = q) →
        ∃ z, g.secondVariableOfSecondOrderFactor y q = some z ∧ z ≠ p0 ∧
          WalkInv g e0 e1 z (y :: p0 :: L) (q :: f0 :: F') := by
      intro q hq hqf hall
      obtain ⟨z, z1, z2, z3, z4⟩ := other_spec g h y q hq
      have hzL : z ∉ p0 :: L := by
        intro hz
        have hqz : q ∈ linksOf g z := (mem_linksOf_pair g q y z z z4).mpr (Or.inr rfl)
        have hqF := hw.closed z hz q hqz
        rw [List.mem_cons] at hqF
        rcases hqF with e | hqF
        · exact hqf e
        · have : some [min y z, max y z] ∈ (links (p0 :: L)).map some := by
            rw [← hF', ← z4]
            exact List.mem_map_of_mem hqF
          rw [List.mem_map] at this
          obtain ⟨s, s1, s2⟩ := this
          cases s2
          exact hyn (links_mem _ _ s1 y ((mem_pair _ _ _).mpr (Or.inl rfl)))
      refine ⟨z, z1, fun e => hzL (by simp [e]), ?_, ?_, ?_, ?_, ?_, ?_⟩
      · rw [List.nodup_cons]
        refine ⟨?_, hw.nodup⟩
        rw [List.mem_cons]
        rintro (e | e)
        · exact z2 e
        · exact hzL e
      · intro x hx
        rw [List.mem_cons] at hx
        rcases hx with rfl | hx
        · exact z3
        · exact hw.lt x hx
      · rw [List.map_cons, hw.used]
        have : links (z :: y :: p0 :: L) = [min z y, max z y] :: links (y :: p0 :: L) := rfl
        rw [this, List.map_cons, z4, pair_comm]
      · intro x hx f hf
        rw [List.mem_cons] at hx
        rcases hx with rfl | hx
        · rcases hall f hf with e | e <;> simp [e]
        · exact List.mem_cons_of_mem _ (hw.closed x hx f hf)
      · exact List.mem_cons_of_mem _ hw.start
      · rw [List.mem_cons]
        rintro (e | e)
        · exact hy e.symm
        · exact hw.notEnd e
    match hN : linksOf g y with
    | [] => rw [hN] at hpos; simp at hpos
    | [_] => rw [hN] at h1; simp at h1
    | _ :: _ :: _ :: _ => rw [hN] at hdeg; simp at hdeg
    | [a, b] =>
      rw [hN] at hf0y hnd
      have hab : a ≠ b := by simpa using hnd
      simp at hf0y
      rcases hf0y with rfl | rfl
      · obtain ⟨z, z1, z2, z3⟩ := key b (by simp [hN]) (fun e => hab e.symm) (by simp [hN])
        refine ⟨z, b, ?_, z3⟩
        simp [chainStep, z1, z2]
      · obtain ⟨z, z1, z2, z3⟩ := key a (by simp [hN]) hab (by rw [hN]; simp; )
        refine ⟨z, a, ?_, z3⟩
        simp [chainStep, hp0, z1, z2]

theorem nodup_length_le {l : List Nat} {n : Nat} (h : l.Nodup) (hl : ∀ x ∈ l, x < n) : l.length ≤ n := by
  have := (List.subperm_of_subset h (l₂ := List.range n) (fun x hx => by simpa using hl x hx)).length_le
  simpa using this

/-- The traversal. -/
theorem chainWalk_spec (g : FG) (h : g.Exact) (e0 e1 : Nat) (he1 : e1 < g.numVars)
    (hends : ∀ v, v < g.numVars → (linksOf g v).length = 1 → v = e0 ∨ v = e1) (fuel : Nat) :
    ∀ (pred y : Nat) (L F ids : List Nat), WalkInv g e0 e1 y (pred :: L) F → g.numVars ≤ fuel + (pred :: L).length →
      ids.length = g.numVars → ids.take (pred :: L).length = (pred :: L).reverse → ids[g.numVars - 1]? = some e1 →
      ∃ b out, chainWalk g e1 g.numVars fuel pred y (pred :: L).length ids = some (b, out) ∧
        (b = false → (∃ v, v < g.numVars ∧ 2 < (linksOf g v).length) ∨
          ∃ L' F', WalkInv g e0 e1 e1 L' F' ∧ L'.length ≠ g.numVars - 1) ∧
        (b = true → ∃ L' F', WalkInv g e0 e1 e1 L' F' ∧ L'.length = g.numVars - 1 ∧ out = (e1 :: L').reverse) := by
  have fin : ∀ (pred : Nat) (L F ids : List Nat), WalkInv g e0 e1 e1 (pred :: L) F → ids.length = g.numVars →
      ids.take (pred :: L).length = (pred :: L).reverse → ids[g.numVars - 1]? = some e1 →
      ∃ b out, some (decide ((pred :: L).length = g.numVars - 1), ids) = some (b, out) ∧
        (b = false → (∃ v, v < g.numVars ∧ 2 < (linksOf g v).length) ∨
          ∃ L' F', WalkInv g e0 e1 e1 L' F' ∧ L'.length ≠ g.numVars - 1) ∧
        (b = true → ∃ L' F', WalkInv g e0 e1 e1 L' F' ∧ L'.length = g.numVars - 1 ∧ out = (e1 :: L').reverse) := by
    intro pred L F ids hw h1 h2 h3
    refine ⟨_, _, rfl, ?_, ?_⟩
    · intro hb
      exact Or.inr ⟨_, _, hw, by simpa using hb⟩
    · intro hb
      have hb' : (pred :: L).length = g.numVars - 1 := by simpa using hb
      refine ⟨_, _, hw, hb', ?_⟩
      have hlt : g.numVars - 1 < ids.length := by omega
      rw [List.getElem?_eq_getElem hlt] at h3
      have h3' := Option.some.inj h3
      rw [List.reverse_cons, ← h2, hb', ← h3', ← List.take_succ_eq_append_getElem hlt]
      rw [List.take_of_length_le (by omega)]
  have room : ∀ (pred y : Nat) (L F : List Nat), WalkInv g e0 e1 y (pred :: L) F → y ≠ e1 →
      (pred :: L).length + 2 ≤ g.numVars := by
    intro pred y L F hw hy
    have := nodup_length_le (l := e1 :: y :: pred :: L) (n := g.numVars) (by
      rw [List.nodup_cons]
      refine ⟨?_, hw.nodup⟩
      rw [List.mem_cons]
      rintro (e | e)
      · exact hy e.symm
      · exact hw.notEnd e) (by
      intro x hx
      rw [List.mem_cons] at hx
      rcases hx with rfl | hx
      · exact he1
      · exact hw.lt x hx)
    simpa using this
  induction fuel with
  | zero =>
    intro pred y L F ids hw hfuel h1 h2 h3
    unfold chainWalk
    by_cases hy : y = e1
    · subst hy
      rw [if_neg (by simp)]
      exact fin pred L F ids hw h1 h2 h3
    · have := room pred y L F hw hy
      omega
  | succ fuel ih =>
    intro pred y L F ids hw hfuel h1 h2 h3
    unfold chainWalk
    by_cases hy : y = e1
    · subst hy
      rw [if_neg (by simp)]
      exact fin pred L F ids hw h1 h2 h3
    · rw [if_pos hy, ids_linksOf g h y (hw.lt y (by simp))]
      simp only
      by_cases hd : (linksOf g y).length > 2
      · rw [if_pos hd]
        exact ⟨false, ids, rfl, fun _ => Or.inl ⟨y, hw.lt y (by simp), hd⟩, by simp⟩
      · rw [if_neg hd]
        have hr := room pred y L F hw hy
        rw [setAt_some _ _ _ (by omega)]
        simp only
        obtain ⟨z, f, s1, s2⟩ := hw.step h hends hy (by omega)
        rw [s1]
        simp only
        refine ih y z (pred :: L) (f :: F) _ s2 (by simp at hfuel ⊢; omega) (by simpa using h1) ?_ ?_
        · have hlt : (pred :: L).length < (ids.set (pred :: L).length y).length := by simp at hr ⊢; omega
          have e1 : (y :: pred :: L).length = (pred :: L).length + 1 := rfl
          rw [e1, List.take_succ_eq_append_getElem hlt, List.reverse_cons, ← h2]
          rw [List.getElem_set_self, List.take_set_of_le (by omega)]
        · rw [List.getElem?_set_ne (by omega)]
          exact h3

/-- A completed traversal of all variables is a chain. -/
theorem WalkInv.chain {g : FG} (h : g.Exact) {e0 e1 : Nat} {L F : List Nat} (hw : WalkInv g e0 e1 e1 L F)
    (hl : L.length = g.numVars - 1) (he1 : (linksOf g e1).length = 1) (hord : ∀ s ∈ g.scopes, s.length ≤ 2)
    (hn : 0 < g.numVars) : ChainOrder g.numVars g.scopes (e1 :: L).reverse := by
  have hperm : (e1 :: L).Perm (List.range g.numVars) := by
    refine (List.subperm_of_subset hw.nodup ?_).perm_of_length_le (by simp; omega)
    intro x hx
    simpa using hw.lt x hx
  have hall : ∀ v, v < g.numVars → v ∈ e1 :: L := fun v hv => hperm.mem_iff.mpr (by simpa using hv)
  -- all factors of order two are used
  have hcl : ∀ v, v < g.numVars → ∀ f ∈ linksOf g v, f ∈ F := by
    intro v hv f hf
    have := hall v hv
    rw [List.mem_cons] at this
    rcases this with rfl | hL
    · cases hLe : L with
      | nil => rw [hLe] at hw; exact absurd hw.start (by simp)
      | cons p L' =>
        rw [hLe] at hw
        have hu := hw.used
        cases F with
        | nil => simp [links] at hu
        | cons f0 F' =>
          simp only [links, List.map_cons, List.cons.injEq] at hu
          have hf0 := (mem_linksOf_pair g f0 v p v hu.1).mpr (Or.inl rfl)
          match hN : linksOf g v with
          | [] => rw [hN] at hf; cases hf
          | _ :: _ :: _ => rw [hN] at he1; simp at he1
          | [a] =>
            rw [hN] at hf hf0
            simp at hf hf0
            simp [hf, hf0]
    · exact hw.closed v hL f hf
  have hFn : F.Nodup := by
    refine List.Nodup.of_map (fun f => g.scopes[f]?) ?_
    rw [hw.used]
    exact (links_nodup _ hw.nodup).map (fun a b e => Option.some.inj e)
  refine ⟨hn, (List.reverse_perm _).trans hperm, hord, ?_⟩
  rw [links_reverse]
  refine List.Perm.trans ?_ (List.reverse_perm _).symm
  have e1' : links (e1 :: L) = F.filterMap (fun f => g.scopes[f]?) := by
    have := congrArg (List.filterMap id) hw.used
    rw [List.filterMap_map, List.filterMap_map] at this
    simpa [Function.comp_def] using this.symm
  rw [e1', ← filter_by_index g.scopes]
  refine List.Perm.filterMap _ ?_
  rw [List.perm_ext_iff_of_nodup (List.Nodup.filter _ List.nodup_range) hFn]
  intro f
  rw [List.mem_filter, List.mem_range]
  constructor
  · rintro ⟨f1, f2⟩
    rw [List.getElem?_eq_getElem f1] at f2
    simp at f2
    have hm : g.scopes[f] ∈ g.scopes := List.getElem_mem f1
    match hs : g.scopes[f], f2 with
    | [a, b], _ =>
      rw [hs] at hm
      refine hcl a (h.range _ hm a (by simp)) f ?_
      rw [mem_linksOf]
      exact ⟨[a, b], by rw [List.getElem?_eq_getElem f1, hs], by simp, rfl⟩
  · intro hf
    have : g.scopes[f]? ∈ (links (e1 :: L)).map some := by
      rw [← hw.used]
      exact List.mem_map_of_mem (f := fun f => g.scopes[f]?) hf
    rw [List.mem_map] at this
    obtain ⟨s, s1, s2⟩ := this
    refine ⟨(List.getElem?_eq_some_iff.mp s2.symm).1, ?_⟩
    rw [← s2]
    simp [links_length2 _ s s1]

/-! ### completeness -/

/-- The number of links of a variable in a duplicate-free list. -/
def degIn (v : Nat) (l : List Nat) : Nat := (links l).countP (fun s => decide (v ∈ s))

theorem degIn_notMem (v : Nat) (l : List Nat) (h : v ∉ l) : degIn v l = 0 := by
  unfold degIn
  rw [List.countP_eq_zero]
  intro s hs hv
  exact h (links_mem l s hs v (by simpa using hv))

theorem degIn_cons (v a b : Nat) (r : List Nat) :
    degIn v (a :: b :: r) = (if v = a ∨ v = b then 1 else 0) + degIn v (b :: r) := by
  unfold degIn
  simp only [links, List.countP_cons, decide_eq_true_eq, mem_pair]
  omega

theorem degIn_head (a b : Nat) (r : List Nat) (h : (a :: b :: r).Nodup) : degIn a (a :: b :: r) = 1 := by
  rw [degIn_cons, degIn_notMem a (b :: r) (List.nodup_cons.mp h).1]
  simp

theorem degIn_le (v : Nat) (l : List Nat) (h : l.Nodup) : degIn v l ≤ 2 := by
  induction l with
  | nil => simp [degIn, links]
  | cons a l ih =>
    cases l with
    | nil => simp [degIn, links]
    | cons b r =>
      have h' := (List.nodup_cons.mp h)
      by_cases hva : v = a
      · subst hva; rw [degIn_head _ _ _ h]; omega
      · rw [degIn_cons]
        by_cases hvb : v = b
        · subst hvb
          cases r with
          | nil => simp [degIn, links]
          | cons c r => rw [degIn_head _ _ _ h'.2]; simp
        · rw [if_neg (by simp [hva, hvb])]
          have := ih h'.2
          omega

theorem degIn_one (v : Nat) (l : List Nat) (h : l.Nodup) :
    ∀ a b r, l = a :: b :: r → (degIn v l = 1 ↔ v = a ∨ some v = l.getLast?) := by
  induction l with
  | nil => intro a b r e; cases e
  | cons x l ih =>
    intro a b r e
    cases e
    have h' := (List.nodup_cons.mp h)
    by_cases hva : v = x
    · subst hva
      rw [degIn_head _ _ _ h]
      simp
    · rw [degIn_cons]
      cases r with
      | nil =>
        by_cases hvb : v = b
        · subst hvb; simp [degIn, links]
        · simp [degIn, links, hva, hvb]
      | cons c r =>
        have ih' := ih h'.2 b c r rfl
        rw [List.getLast?_cons_cons]
        by_cases hvb : v = b
        · subst hvb
          rw [degIn_head _ _ _ h'.2]
          have : some v ≠ (v :: c :: r).getLast? := by
            intro e
            rw [List.getLast?_cons_cons] at e
            exact (List.nodup_cons.mp h'.2).1 (List.mem_of_getLast? e.symm)
          rw [List.getLast?_cons_cons] at this ⊢
          simp [hva, this]
        · rw [if_neg (by simp [hva, hvb]), Nat.zero_add, ih']
          simp [hva, hvb]

theorem ChainOrder.deg {g : FG} {p : List Nat} (hp : ChainOrder g.numVars g.scopes p) (v : Nat) :
    (linksOf g v).length = degIn v p := by
  rw [linksOf_length]
  unfold degIn
  rw [← hp.factors.countP_eq, List.countP_filter]
  refine List.countP_congr ?_
  intro s _
  simp [isLinkOf]

/-- A set closed under the links of `p` contains all entries of `p` or none. -/
theorem closed_all (S : Nat → Prop) (p : List Nat)
    (hc : ∀ a b, [min a b, max a b] ∈ links p → (S a ↔ S b)) : ∀ x ∈ p, ∀ y ∈ p, S x → S y := by
  have main : ∀ a r, p = a :: r → ∀ x ∈ p, (S x ↔ S a) := by
    induction p with
    | nil => intro a r e; cases e
    | cons c l ih =>
      intro a r e x hx
      cases e
      cases l with
      | nil => simp at hx; simp [hx]
      | cons b r =>
        rw [List.mem_cons] at hx
        rcases hx with rfl | hx
        · rfl
        · rw [ih (fun a b h => hc a b (by simp [links, h])) b r rfl x hx]
          exact (hc c b (by simp [links])).symm
  intro x hx y hy hs
  cases p with
  | nil => cases hx
  | cons a r => exact (main a r rfl y hy).mpr ((main a r rfl x hx).mp hs)

/-- If the factor graph is a chain the traversal reaches all variables. -/
theorem WalkInv.complete {g : FG} {e0 e1 : Nat} {L F p : List Nat} (hw : WalkInv g e0 e1 e1 L F)
    (he1 : (linksOf g e1).length = 1) (hp : ChainOrder g.numVars g.scopes p) : L.length = g.numVars - 1 := by
  have hused : ∀ x ∈ e1 :: L, ∀ f ∈ linksOf g x, f ∈ F := by
    intro x hx f hf
    rw [List.mem_cons] at hx
    rcases hx with rfl | hL
    · cases hLe : L with
      | nil => rw [hLe] at hw; exact absurd hw.start (by simp)
      | cons p L' =>
        rw [hLe] at hw
        have hu := hw.used
        cases F with
        | nil => simp [links] at hu
        | cons f0 F' =>
          simp only [links, List.map_cons, List.cons.injEq] at hu
          have hf0 := (mem_linksOf_pair g f0 x p x hu.1).mpr (Or.inl rfl)
          match hN : linksOf g x with
          | [] => rw [hN] at hf; cases hf
          | _ :: _ :: _ => rw [hN] at he1; simp at he1
          | [a] =>
            rw [hN] at hf hf0
            simp at hf hf0
            simp [hf, hf0]
    · exact hw.closed x hL f hf
  have hcl : ∀ a b, [min a b, max a b] ∈ links p → a ∈ e1 :: L → b ∈ e1 :: L := by
    intro a b hm ha
    have hs : [min a b, max a b] ∈ g.scopes := List.mem_of_mem_filter (hp.factors.mem_iff.mpr hm)
    obtain ⟨f, hf⟩ := List.getElem?_of_mem hs
    have hfF := hused a ha f ((mem_linksOf_pair g f a b a hf).mpr (Or.inl rfl))
    have : g.scopes[f]? ∈ (links (e1 :: L)).map some := by
      rw [← hw.used]
      exact List.mem_map_of_mem (f := fun f => g.scopes[f]?) hfF
    rw [hf, List.mem_map] at this
    obtain ⟨s, s1, s2⟩ := this
    cases s2
    exact links_mem _ _ s1 b ((mem_pair _ _ _).mpr (Or.inr rfl))
  have hall := closed_all (fun x => x ∈ e1 :: L) p (fun a b hm => ⟨hcl a b hm, hcl b a (by rw [pair_comm]; exact hm)⟩)
  have he1p : e1 ∈ p := hp.all.mem_iff.mpr (by simpa using hw.lt e1 (by simp))
  have h1 : p.length ≤ (e1 :: L).length := (List.subperm_of_subset (hp.all.nodup_iff.mpr List.nodup_range)
    (fun y hy => hall e1 he1p y hy (by simp))).length_le
  have h2 := nodup_length_le hw.nodup hw.lt
  have h3 : p.length = g.numVars := by rw [hp.all.length_eq]; simp
  simp at h1 h2
  omega

/-- The whole function. -/
theorem isChain_spec (g : FG) (h : g.Exact) (ids0 : List Nat) :
    ∃ b out, g.isChain ids0 = some (b, out) ∧ (b = true → ChainOrder g.numVars g.scopes out) ∧
      (b = false → ∀ p, ¬ ChainOrder g.numVars g.scopes p) := by
  unfold isChain
  by_cases hn : g.numVars = 0
  · rw [if_pos hn]
    exact ⟨false, ids0, rfl, by simp, fun _ p hp => by have := hp.nonempty; omega⟩
  rw [if_neg hn]
  by_cases hord : g.maxFactorOrderLe 2 = false
  · rw [if_pos hord]
    refine ⟨false, ids0, rfl, by simp, fun _ p hp => ?_⟩
    have := (C13_maxFactorOrderLe g 2).mpr hp.order
    rw [hord] at this
    cases this
  rw [if_neg hord]
  have hord' : ∀ s ∈ g.scopes, s.length ≤ 2 := (C13_maxFactorOrderLe g 2).mp (by simpa using hord)
  by_cases h1 : g.numVars = 1
  · rw [if_pos h1]
    refine ⟨true, [0], rfl, fun _ => ⟨by omega, by rw [h1]; simp, hord', ?_⟩, by simp⟩
    have : g.scopes.filter (fun s => decide (s.length = 2)) = [] := by
      rw [List.filter_eq_nil_iff]
      intro s hs hl
      have hl' : s.length = 2 := by simpa using hl
      match s, hl' with
      | [a, b], _ =>
        have ha := h.range _ hs a (by simp)
        have hb := h.range _ hs b (by simp)
        have hab : a < b := by simpa using h.sorted _ hs
        omega
    rw [this]
    exact List.Perm.refl _
  rw [if_neg h1]
  rw [findEnds_spec g h _ [] (by simp) (by simp)]
  simp only [List.nil_append]
  generalize hE : (List.range g.numVars).filter (fun i => decide ((linksOf g i).length = 1)) = E
  have memE : ∀ v, v ∈ E ↔ v < g.numVars ∧ (linksOf g v).length = 1 := by
    intro v; rw [← hE, List.mem_filter]; simp
  have hEn : E.Nodup := by rw [← hE]; exact List.nodup_range.filter _
  have two : ∀ p, ChainOrder g.numVars g.scopes p → E.length = 2 := by
    intro p hp
    have hpl : p.length = g.numVars := by rw [hp.all.length_eq]; simp
    have hpn : p.Nodup := hp.all.nodup_iff.mpr List.nodup_range
    match p, hpl, hp, hpn with
    | [], hpl, _, _ => simp at hpl; omega
    | [_], hpl, _, _ => simp at hpl; omega
    | a :: b :: r, hpl, hp, hpn =>
      have hlast : (a :: b :: r).getLast? = some ((a :: b :: r).getLast (by simp)) := List.getLast?_eq_some_getLast (by simp)
      have hne : a ≠ (a :: b :: r).getLast (by simp) := by
        rw [List.getLast_cons (by simp)]
        intro e
        exact (List.nodup_cons.mp hpn).1 (e ▸ List.getLast_mem (l := b :: r) (by simp))
      have hpm : E.Perm [a, (a :: b :: r).getLast (by simp)] := by
        rw [List.perm_ext_iff_of_nodup hEn (by simpa using hne)]
        intro v
        rw [memE, ChainOrder.deg hp v, degIn_one v _ hpn a b r rfl, hlast]
        simp only [List.mem_cons, List.not_mem_nil, or_false, Option.some.injEq]
        constructor
        · exact fun h => h.2
        · intro hv
          refine ⟨?_, hv⟩
          have : v ∈ a :: b :: r := by
            rcases hv with rfl | rfl
            · simp
            · exact List.getLast_mem _
          simpa using hp.all.mem_iff.mp this
      rw [hpm.length_eq]
      rfl
  by_cases hlen : E.length ≤ 2
  · rw [if_pos hlen]
    match E, hlen, memE, hEn, two with
    | [], _, _, _, two =>
      exact ⟨false, ids0, rfl, by simp, fun _ p hp => by have := two p hp; simp at this⟩
    | [_], _, _, _, two =>
      exact ⟨false, ids0, rfl, by simp, fun _ p hp => by have := two p hp; simp at this⟩
    | [e0, e1], _, memE, hEn, two =>
      simp only
      have hne : e0 ≠ e1 := by simpa using hEn
      have m0 := (memE e0).mp (by simp)
      have m1 := (memE e1).mp (by simp)
      rw [setAt_some _ _ _ (by simp; omega)]
      simp only
      rw [setAt_some _ _ _ (by simp; omega)]
      simp only
      obtain ⟨fs, a1, a2, a3⟩ := h.adj e0 m0.1
      rw [a1]
      simp only
      obtain ⟨r, b1, b2⟩ := chainStart_spec g h e0 fs none (fun f hf => (a3 f).mp hf)
      match hN : linksOf g e0, m0.2 with
      | [f0], _ =>
        have hf0 : f0 ∈ linksOf g e0 := by simp [hN]
        have hf0fs : f0 ∈ fs := by
          obtain ⟨s, s1, s2, _⟩ := (mem_linksOf g e0 f0).mp hf0
          exact (a3 f0).mpr ⟨s, s1, s2⟩
        rcases b2 with ⟨_, b2⟩ | ⟨f, y, b2, b3, b4⟩
        · exact absurd hf0 (b2 f0 hf0fs)
        · subst b3
          have hff : f = f0 := by rw [hN] at b2; simpa using b2
          subst hff
          rw [b1]
          simp only
          obtain ⟨y', c1, c2, c3, c4⟩ := other_spec g h e0 f hf0
          rw [b4] at c1
          cases c1
          have hends : ∀ v, v < g.numVars → (linksOf g v).length = 1 → v = e0 ∨ v = e1 := by
            intro v hv hv1
            have := (memE v).mpr ⟨hv, hv1⟩
            simpa using this
          have hw : WalkInv g e0 e1 y [e0] [f] := by
            refine ⟨by simpa using c2, ?_, ?_, ?_, by simp, by simpa using fun e => hne e.symm⟩
            · intro x hx
              simp at hx
              rcases hx with rfl | rfl
              · exact c3
              · exact m0.1
            · simp [links, c4, Nat.min_comm, Nat.max_comm]
            · intro x hx f' hf'
              simp at hx
              subst hx
              rw [hN] at hf'
              exact hf'
          obtain ⟨b, out, d1, d2, d3⟩ := chainWalk_spec g h e0 e1 m1.1 hends g.numVars e0 y [] [f]
            (((List.replicate g.numVars 0).set 0 e0).set (g.numVars - 1) e1) hw (by simp) (by simp) (by
              have : 0 < g.numVars := by omega
              obtain ⟨k, hk⟩ : ∃ k, g.numVars = k + 2 := ⟨g.numVars - 2, by omega⟩
              rw [hk]
              simp [List.replicate_succ]) (by
              rw [List.getElem?_set_self (by simp; omega)])
          refine ⟨b, out, d1, ?_, ?_⟩
          · intro hb
            obtain ⟨L', F', w1, w2, w3⟩ := d3 hb
            rw [w3]
            exact w1.chain h w2 m1.2 hord' (by omega)
          · intro hb p hp
            rcases d2 hb with ⟨v, v1, v2⟩ | ⟨L', F', w1, w2⟩
            · rw [ChainOrder.deg hp v] at v2
              have := degIn_le v p (hp.all.nodup_iff.mpr List.nodup_range)
              omega
            · exact w2 (w1.complete m1.2 hp)
  · rw [if_neg hlen]
    exact ⟨false, ids0, rfl, by simp, fun _ p hp => by have := two p hp; omega⟩

end FG
end OpenGM
