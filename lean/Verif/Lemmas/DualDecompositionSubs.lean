import Verif.Model.DualDecomposition
import Verif.Spec.DualDecomposition
import Verif.Lemmas.GraphicalModel
import Verif.Lemmas.DecompositionComplete
import Mathlib.Algebra.BigOperators.Group.Finset.Piecewise
import Mathlib.Algebra.BigOperators.Group.List.Basic
/-
Dual decomposition: the submodels and the sum of their values.
-/
namespace OpenGM
namespace DualDecomposition
open Spec Decomposition
variable {V : Type} [Field V]

/-! ### Tables -/

theorem tableFold_spec {counts : List Nat} (g : Nat → Option Nat) : ∀ (A : List (SubVariable × Nat)) (table : List (List Nat)),
    table.map List.length = counts → (∀ p ∈ A, ∃ n, counts[p.1.model]? = some n ∧ p.1.id < n) → (∀ p ∈ A, ∃ x, g p.2 = some x) →
    (∀ p ∈ A, ∀ q ∈ A, p.1 = q.1 → p.2 = q.2) →
    ∃ T, A.foldlM (fun table (p : SubVariable × Nat) =>
        match g p.2 with
        | none => none
        | some n => setEntry table p.1.model p.1.id n) table = some T ∧
      T.map List.length = counts ∧ (∀ p ∈ A, entry T p.1.model p.1.id = g p.2) ∧
      (∀ m k, (∀ p ∈ A, p.1 ≠ ⟨m, k⟩) → entry T m k = entry table m k) := by
  intro A
  induction A with
  | nil =>
    intro table hs _ _ _
    exact ⟨table, rfl, hs, by simp, fun _ _ _ => rfl⟩
  | cons p A ih =>
    intro table hs hr hg hf
    obtain ⟨n, hn, hk⟩ := hr p (by simp)
    obtain ⟨x, hx⟩ := hg p (by simp)
    obtain ⟨T1, e1, s1, g1⟩ := setEntry_spec hs hn hk x
    obtain ⟨T, e2, s2, h2, h3⟩ := ih T1 s1 (fun q hq => hr q (by simp [hq])) (fun q hq => hg q (by simp [hq]))
      (fun q hq r hr => hf q (by simp [hq]) r (by simp [hr]))
    refine ⟨T, ?_, s2, ?_, ?_⟩
    · rw [List.foldlM_cons]
      simp only [hx, e1]
      exact e2
    · intro q hq
      rcases List.mem_cons.mp hq with hq | hq
      · subst hq
        by_cases hex : ∃ r ∈ A, r.1 = q.1
        · obtain ⟨r, hr1, hr2⟩ := hex
          rw [← hr2, h2 r hr1, hf r (by simp [hr1]) q (by simp) hr2]
        · rw [h3 _ _ (by intro r hr1 hr2; exact hex ⟨r, hr1, by rw [hr2]⟩), g1, if_pos ⟨rfl, rfl⟩, hx]
      · exact h2 q hq
    · intro m k hne
      rw [h3 m k (fun q hq => hne q (by simp [hq])), g1, if_neg]
      rintro ⟨rfl, rfl⟩
      exact hne p (by simp) rfl

theorem entry_eq {T : List (List Nat)} {m k x : Nat} : entry T m k = some x ↔ ∃ row, T[m]? = some row ∧ row[k]? = some x := by
  unfold entry
  cases T[m]? with
  | none => simp
  | some row => simp

theorem copyOf_lt {varLists : List (List SubVariable)} {m k v : Nat} (h : CopyOf varLists m k v) : v < varLists.length := by
  obtain ⟨l, h, _⟩ := h
  exact (List.getElem?_eq_some_iff.mp h).1

/-- A table with a row for each submodel that gives each copy the number `g v` of its variable. -/
theorem table_spec {scopes : List (List Nat)} {d : Decomposition} (h : WF scopes d) (g : Nat → Option Nat) (hg : ∀ v, v < d.numVars → ∃ x, g v = some x) :
    ∃ T, d.visits.foldlM (fun table (p : SubVariable × Nat) =>
        match g p.2 with
        | none => none
        | some n => setEntry table p.1.model p.1.id n) d.zeroTable = some T ∧
      T.map List.length = d.numSubVars ∧ ∀ m k v, CopyOf d.varLists m k v → entry T m k = g v := by
  obtain ⟨T, e, h0, h1, _⟩ := tableFold_spec (counts := d.numSubVars) g d.visits d.zeroTable d.zeroTable_shape
    (by
      rintro ⟨s, v⟩ hp
      rw [mem_visits] at hp
      exact (h.numbered.range s.model s.id).mp ⟨v, hp⟩)
    (by
      rintro ⟨s, v⟩ hp
      rw [mem_visits] at hp
      exact hg v (by rw [← h.varsLen]; exact copyOf_lt hp))
    (by
      rintro ⟨s, v⟩ hp ⟨t, w⟩ hq e
      rw [mem_visits] at hp hq
      simp only at e
      subst e
      exact h.numbered.unique s.model s.id v w hp hq)
  exact ⟨T, e, h0, fun m k v hc => h1 (⟨m, k⟩, v) (mem_visits.mpr hc)⟩

theorem numStates_spec {scopes : List (List Nat)} {d : Decomposition} (h : WF scopes d) (gm : GM V) (hn : d.numVars = gm.numLabels.length) :
    ∃ ns, numStates gm d = some ns ∧ ns.map List.length = d.numSubVars ∧ ∀ m k v, CopyOf d.varLists m k v → entry ns m k = gm.numLabels[v]? :=
  table_spec h (fun v => gm.numLabels[v]?) (fun v hv => ⟨_, List.getElem?_eq_getElem (by rw [← hn]; exact hv)⟩)

theorem realTable_spec' {scopes : List (List Nat)} {d : Decomposition} (h : WF scopes d) :
    ∃ T, d.realTable = some T ∧ T.map List.length = d.numSubVars ∧ ∀ m k v, CopyOf d.varLists m k v → entry T m k = some v :=
  table_spec h some (fun v _ => ⟨v, rfl⟩)

/-! ### Building the submodels -/

/-- The call adds a factor that fits the submodel. -/
structure CallOk (ns : List (List Nat)) (c : Call V) : Prop where
  sorted : c.ids.Pairwise (· < ·)
  row : ∃ row, ns[c.model]? = some row ∧ (∀ k ∈ c.ids, k < row.length) ∧ c.fn.shape = restrict row c.ids

/-- The factor that the call adds. -/
def Call.term (c : Call V) : Term (Val V) := ⟨c.ids, c.fn.table⟩

/-- The submodels have the numbers of labels `ns` and the factors `terms`. -/
structure SubsOk (ns : List (List Nat)) (terms : Nat → List (Term (Val V))) (subs : List (Sub V)) : Prop where
  len : subs.length = ns.length
  rep : ∀ (m : Nat) (g : Sub V) (row : List Nat), subs[m]? = some g → ns[m]? = some row → Represents g ⟨row, terms m⟩ ∧ g.functions.length = 1

theorem SubsOk.start (ns : List (List Nat)) : SubsOk (V := V) ns (fun _ => []) (ns.map (GM.ofSpace 1)) where
  len := by simp
  rep := by
    intro m g row hg hr
    rw [List.getElem?_map, hr] at hg
    simp only [Option.map_some, Option.some.injEq] at hg
    subst hg
    refine ⟨⟨⟨rfl, by simp [GM.ofSpace], ?_, rfl⟩, ?_⟩, by simp [GM.ofSpace]⟩
    · exact .nil
    · intro v hv
      have hv' : v < row.length := hv
      simp [GM.ofSpace, hv']

theorem runCall_spec {ns : List (List Nat)} {terms : Nat → List (Term (Val V))} {subs : List (Sub V)} (h : SubsOk ns terms subs) {c : Call V} (hc : CallOk ns c) :
    ∃ subs', runCall subs c = .ok () subs' ∧ SubsOk ns (fun m => if c.model = m then terms m ++ [c.term] else terms m) subs' := by
  obtain ⟨row, hrow, hlt, hsh⟩ := hc.row
  have hm : c.model < subs.length := by rw [h.len]; exact (List.getElem?_eq_some_iff.mp hrow).1
  obtain ⟨g, hg⟩ : ∃ g, subs[c.model]? = some g := ⟨_, List.getElem?_eq_getElem hm⟩
  obtain ⟨hrep, hfl⟩ := h.rep _ _ _ hg hrow
  obtain ⟨tbl, ht⟩ : ∃ tbl, g.functions[0]? = some tbl := ⟨_, List.getElem?_eq_getElem (by omega)⟩
  have hrep1 := represents_functions hrep 0 tbl c.fn ht
  have hfn := getFunction_new g 0 tbl c.fn ht
  have hnl : g.numLabels = row := hrep.labels
  obtain ⟨g2, e2, hrep2, hf2⟩ := represents_addFactor hrep1 ⟨tbl.length, 0⟩ c.term c.fn hc.sorted (by rw [hrep1.labels]; exact hlt) hfn
    (by rw [hrep1.labels]; exact hsh) (fun _ _ => rfl)
  refine ⟨subs.set c.model g2, ?_, ?_, ?_⟩
  · unfold runCall
    simp only [hg, GM.addFunction, ht]
    have : c.term.vars = c.ids := rfl
    rw [this] at e2
    rw [e2]
  · rw [List.length_set]; exact h.len
  · intro m g' row' hg' hr'
    by_cases e : c.model = m
    · subst e
      rw [List.getElem?_set_self hm] at hg'
      injection hg' with hg'
      subst hg'
      rw [hrow] at hr'
      injection hr' with hr'
      subst hr'
      simp only [if_true]
      exact ⟨hrep2, by rw [hf2, List.length_set]; exact hfl⟩
    · rw [List.getElem?_set_ne e] at hg'
      simp only [if_neg e]
      exact h.rep _ _ _ hg' hr'

theorem runCalls_spec {ns : List (List Nat)} : ∀ (calls : List (Call V)) (terms : Nat → List (Term (Val V))) (subs : List (Sub V)), SubsOk ns terms subs →
    (∀ c ∈ calls, CallOk ns c) →
    ∃ subs', runCalls calls subs = .ok () subs' ∧ SubsOk ns (fun m => terms m ++ (calls.filter (fun c => c.model = m)).map Call.term) subs'
  | [], terms, subs, h, _ => ⟨subs, rfl, by simpa using h⟩
  | c :: cs, terms, subs, h, hc => by
    obtain ⟨s1, e1, h1⟩ := runCall_spec h (hc c (by simp))
    obtain ⟨s2, e2, h2⟩ := runCalls_spec cs _ s1 h1 (fun c' hc' => hc c' (by simp [hc']))
    refine ⟨s2, by simp only [runCalls, e1, e2], ?_⟩
    convert h2 using 2 with m
    by_cases e : c.model = m
    · simp [e]
    · simp [e]

/-! ### Values -/

theorem adder_fold {α : Type} (mem : Mem V) (val : α → Val V) (w : α → V) : ∀ (l : List α) (a : Val V) (x : V), a mem = some x →
    (∀ c ∈ l, val c mem = some (w c)) → ((l.map val).foldl (adder (V := V)).op a) mem = some (x + (l.map w).sum)
  | [], a, x, ha, _ => by simp [ha]
  | c :: l, a, x, ha, h => by
    rw [List.map_cons, List.foldl_cons, adder_fold mem val w l _ (x + w c) (by simp [adder, ha, h c (by simp)]) (fun c' hc' => h c' (by simp [hc']))]
    simp [add_assoc]

/-- The value of the factor of a call if the submodels have the labelings `Y`. -/
def callVal (mem : Mem V) (Y : List (List Nat)) (c : Call V) : Option V := c.fn.table (restrict (Y.getD c.model []) c.ids) mem

theorem evaluate_sub {row : List Nat} {cs : List (Call V)} {g : Sub V} (h : Represents g ⟨row, cs.map Call.term⟩) {y : List Nat} (hy : RowLabeling row y) :
    ∃ v, GM.evaluate adder g y = some v ∧ ∀ (mem : Mem V) (w : Call V → V), (∀ c ∈ cs, c.fn.table (restrict y c.ids) mem = some (w c)) →
      v mem = some (cs.map w).sum := by
  refine ⟨_, evaluate_spec adder h.toStores y hy, ?_⟩
  intro mem w hw
  unfold Problem.energy
  simp only [List.map_map]
  have := adder_fold mem (fun c : Call V => (c.term).value y) w cs (adder (V := V)).neutral 0 rfl (by
    intro c hc
    exact hw c hc)
  rw [zero_add] at this
  exact this

theorem sum_filter_model (w : Call V → V) (n : Nat) : ∀ (calls : List (Call V)), (∀ c ∈ calls, c.model < n) →
    ∑ m ∈ Finset.range n, ((calls.filter (fun c => c.model = m)).map w).sum = (calls.map w).sum
  | [], _ => by simp
  | c :: cs, h => by
    have ih := sum_filter_model w n cs (fun c' hc' => h c' (by simp [hc']))
    rw [List.map_cons, List.sum_cons, ← ih]
    have : ∀ m, (((c :: cs).filter (fun c => c.model = m)).map w).sum = (if c.model = m then w c else 0) + ((cs.filter (fun c => c.model = m)).map w).sum := by
      intro m
      by_cases e : c.model = m
      · simp [e]
      · simp [e]
    simp only [this, Finset.sum_add_distrib]
    rw [Finset.sum_ite_eq, if_pos (Finset.mem_range.mpr (h c (by simp)))]

theorem lowerBound_aux (mem : Mem V) (F : Nat → V) : ∀ (subs : List (Sub V)) (Y : List (List Nat)) (k : Nat), Y.length = subs.length →
    (∀ (m : Nat) (g : Sub V) (y : List Nat), subs[m]? = some g → Y[m]? = some y → ∃ v, GM.evaluate adder g y = some v ∧ v mem = some (F (k + m))) →
    lowerBound mem subs Y = some (∑ m ∈ Finset.range subs.length, F (k + m))
  | [], _, _, _, _ => by simp [lowerBound]
  | g :: gs, [], _, h, _ => by simp at h
  | g :: gs, y :: ys, k, hl, h => by
    obtain ⟨v, e, ev⟩ := h 0 g y rfl rfl
    have ih := lowerBound_aux mem F gs ys (k + 1) (by simpa using hl) (fun m g' y' hg hy => by
      have := h (m + 1) g' y' (by simpa using hg) (by simpa using hy)
      rwa [show k + (m + 1) = k + 1 + m by omega] at this)
    simp only [lowerBound, e, ev, ih, List.length_cons]
    rw [Finset.sum_range_succ', add_comm]
    congr 2
    apply Finset.sum_congr rfl
    intro m _
    congr 1
    omega

theorem lowerBound_spec {ns : List (List Nat)} {calls : List (Call V)} {subs : List (Sub V)}
    (h : SubsOk ns (fun m => (calls.filter (fun c => c.model = m)).map Call.term) subs) (hm : ∀ c ∈ calls, c.model < ns.length)
    {Y : List (List Nat)} (hY : List.Forall₂ RowLabeling ns Y) (mem : Mem V) (w : Call V → V) (hw : ∀ c ∈ calls, callVal mem Y c = some (w c)) :
    lowerBound mem subs Y = some (calls.map w).sum := by
  have hlen := hY.length_eq
  rw [lowerBound_aux mem (fun m => ((calls.filter (fun c => c.model = m)).map w).sum) subs Y 0 (by rw [← hlen, h.len])]
  · simp only [Nat.zero_add]
    rw [h.len, sum_filter_model w ns.length calls hm]
  · intro m g y hg hy
    have hml : m < ns.length := by rw [← h.len]; exact (List.getElem?_eq_some_iff.mp hg).1
    obtain ⟨row, hrow⟩ : ∃ row, ns[m]? = some row := ⟨_, List.getElem?_eq_getElem hml⟩
    have hyl : RowLabeling row y := by
      obtain ⟨_, hget⟩ := List.forall₂_iff_get.mp hY
      have := hget m hml (by rw [← hlen]; exact hml)
      simp only [List.get_eq_getElem] at this
      rw [List.getElem?_eq_some_iff] at hrow hy
      obtain ⟨_, rfl⟩ := hrow
      obtain ⟨_, rfl⟩ := hy
      exact this
    obtain ⟨v, e, hv⟩ := evaluate_sub (h.rep m g row hg hrow).1 hyl
    refine ⟨v, e, ?_⟩
    rw [Nat.zero_add]
    apply hv
    intro c hc
    obtain ⟨h1, h2⟩ := List.mem_filter.mp hc
    have := hw c h1
    simp only [decide_eq_true_eq] at h2
    unfold callVal at this
    rw [h2, List.getD_eq_getElem?_getD, hy] at this
    exact this

end DualDecomposition
end OpenGM
