import Verif.Lemmas.FactorAccumulate
/-
Loops by scalar index; IndependentFactor.
-/
namespace OpenGM
open Spec
namespace FactorOps
open Marray Geometry Walkers
variable {V : Type}

theorem index_tuple {shape t : List Nat} {k : Nat} (h : (allTuples shape)[k]? = some t) :
    InShape shape t ∧ dot (stridesOf shape defaultOrder) t = k := scan_spec (o := .lastMajor) h

theorem setIndex_eq {a : Arr V} {shape t : List Nat} {k : Nat} (ha : a.Ok shape defaultOrder) (h : (allTuples shape)[k]? = some t) (x : V) :
    setIndex a k x = a.set t x := by
  obtain ⟨hin, hd⟩ := index_tuple h
  obtain ⟨hg, mem, hm, hl⟩ := ha
  have hoff : a.geometry.coordinatesToOffset t = some k := by
    rw [hg, (inv_dense shape defaultOrder defaultOrder).toOffset (by rw [dense_shape]; exact hin), dense_strides, hd]
  unfold setIndex Arr.set
  rw [hm, hoff, indexToOffset, hg, if_pos (Arr.dense_simple _ _)]

theorem getIndex_eq {a : Arr V} {shape t : List Nat} {k : Nat} (ha : a.Ok shape defaultOrder) (h : (allTuples shape)[k]? = some t) :
    a.getIndex k = a.get t := by
  obtain ⟨hin, hd⟩ := index_tuple h
  obtain ⟨hg, mem, hm, hl⟩ := ha
  rw [Arr.Ok.getIndex_eq hg hm, Arr.Ok.get_eq hg hm hin, hd]

/-- A counter next to a walker. -/
theorem visits_counter {σ : Type} (next : σ → Option σ) : ∀ (l : List σ) (s : σ) (k : Nat), Visits next s l →
    Visits (fun s : Nat × σ => (next s.2).map (fun c => (s.1 + 1, c))) (k, s) ((List.range' k l.length).zip l)
  | [], _, _, _ => by simp [Visits]
  | a :: l, _, k, ⟨rfl, s', hs, h⟩ => by
    simp only [List.length_cons, List.range'_succ, List.zip_cons_cons]
    exact ⟨rfl, (k + 1, s'), by simp [hs], visits_counter next l s' (k + 1) h⟩

theorem visits_range : ∀ (n k : Nat), Visits (fun s : Nat => some (s + 1)) k (List.range' k n)
  | 0, _ => trivial
  | n + 1, k => by
    rw [List.range'_succ]
    exact ⟨rfl, k + 1, rfl, visits_range n (k + 1)⟩

/-- The tuple with scalar index `k`. -/
def tupleAt (shape : List Nat) (k : Nat) : List Nat := (allTuples shape).getD k []

theorem map_tupleAt {shape : List Nat} {n : Nat} (hn : n = shape.prod) : (List.range' 0 n).map (tupleAt shape) = allTuples shape := by
  apply List.ext_getElem?
  intro k
  rw [List.getElem?_map, ← List.range_eq_range']
  rcases Nat.lt_or_ge k n with h | h
  · rw [List.getElem?_range h]
    have hk : k < (allTuples shape).length := by rw [length_allTuples]; omega
    simp only [Option.map_some, tupleAt]
    rw [List.getD_eq_getElem?_getD, List.getElem?_eq_getElem hk, Option.getD_some]
  · rw [List.getElem?_eq_none (by simpa using h), List.getElem?_eq_none (by rw [length_allTuples]; omega)]
    rfl

theorem tupleAt_some {shape : List Nat} {k : Nat} (h : k < shape.prod) : (allTuples shape)[k]? = some (tupleAt shape k) := by
  have hk : k < (allTuples shape).length := by rw [length_allTuples]; omega
  rw [tupleAt, List.getD_eq_getElem?_getD, List.getElem?_eq_getElem hk, Option.getD_some]

theorem tupleAt_of_some {shape t : List Nat} {k : Nat} (h : (allTuples shape)[k]? = some t) : tupleAt shape k = t := by
  rw [tupleAt, List.getD_eq_getElem?_getD, h, Option.getD_some]

/-- Fill an array by scalar index, reading the values at the states of a walker; the k-th state belongs to the k-th tuple. -/
theorem fillIndex_spec {σ : Type} {L : Nat → Nat} {vars : List Nat} (hnd : vars.Nodup) (next : σ → Option σ) (F : (Nat → Nat) → V)
    (hF : ∀ x y, Labels L vars x → (∀ v ∈ vars, x v = y v) → F x = F y) (read : σ → Option V)
    {e : List Nat → σ} {s0 : σ} {c0 : Arr V} {n : Nat} (hn : n = (vars.map L).prod) (h0 : c0.Ok (vars.map L) defaultOrder)
    (hv : Visits next s0 ((allTuples (vars.map L)).map e))
    (hread : ∀ t, InShape (vars.map L) t → read (e t) = some (F (labelingOf vars t))) :
    ∃ c, walkLoop (fun s : Nat × σ => (next s.2).map (fun c => (s.1 + 1, c))) (fun s f => assignIndex id f s.1 (read s.2)) n (0, s0) c0 = some c ∧
      c.Ok (vars.map L) defaultOrder ∧ HasValue L vars c.geometry.shape c.get F := by
  have hlen : ((allTuples (vars.map L)).map e).length = n := by rw [List.length_map, length_allTuples, hn]
  have hvc := visits_counter next _ s0 0 hv
  refine fill_spec hnd _ (fun s : Nat × σ => tupleAt (vars.map L) s.1) F hF _ (by simp [hlen]) h0 hvc ?_ ?_
  · have := map_tupleAt (shape := vars.map L) hn
    conv_rhs => rw [← this]
    rw [hlen]
    have h2 : (List.range' 0 n).map (tupleAt (vars.map L)) =
        (((List.range' 0 n).zip ((allTuples (vars.map L)).map e)).map Prod.fst).map (tupleAt (vars.map L)) := by
      rw [List.map_fst_zip (by rw [hlen]; simp)]
    rw [h2, List.map_map]
    rfl
  · intro s hs c hc _ hin
    obtain ⟨k, hk, hsk⟩ := List.getElem_of_mem hs
    simp only [List.length_zip, List.length_range', hlen] at hk
    have hkn : k < n := by omega
    rw [List.getElem_zip] at hsk
    subst hsk
    simp only [List.getElem_range', List.getElem_map] at hin ⊢
    have hk' : k < (allTuples (vars.map L)).length := by rw [length_allTuples]; omega
    have ht : (allTuples (vars.map L))[k]? = some (tupleAt (vars.map L) k) := tupleAt_some (by omega)
    have hg : (allTuples (vars.map L))[k] = tupleAt (vars.map L) k := by
      rw [List.getElem?_eq_getElem hk'] at ht
      exact Option.some.inj ht
    simp only [Nat.zero_add, Nat.one_mul] at hin ⊢
    rw [hg, hread _ hin]
    simp only [assignIndex, id]
    exact setIndex_eq hc ht _

/-! ### conversion of factors -/

theorem copyLoop_spec {L : Nat → Nat} {vars : List Nat} {src : Fn V} {f : (Nat → Nat) → V} {c0 : Arr V} {n : Nat} (hn : n = (vars.map L).prod)
    (hs : HasValue L vars src.shape src.eval f) (hnd : vars.Nodup) (hp : ∀ v ∈ vars, 0 < L v) {o : Order} (h0 : c0.Ok (vars.map L) o) :
    ∃ c, walkLoop (shapeWalkerNext (vars.map L)) (fun s f => assign1 id f s (src.eval s)) n (shapeWalkerInit (vars.map L)) c0 = some c ∧
      c.Ok (vars.map L) o ∧ HasValue L vars c.geometry.shape c.get f :=
  fill_spec hnd (shapeWalkerNext (vars.map L)) id f
    (fun x y hx he => hasValue_congr hs hx he) (fun s b => assign1 id b s (src.eval s)) (l := allTuples (vars.map L))
    (n := n) (by rw [length_allTuples, hn]) h0 (visits_shapeWalker (positive_map hp)) (by simp) (by
      intro s _ c _ _ hin
      have hl := labelingOf_spec hnd hin
      rw [id] at hl
      have h2 := hasValue_read hs hl.2
      rw [hl.1] at h2
      simp only [id]
      rw [h2]
      rfl)

theorem ofFactor_spec (zero : V) {L : Nat → Nat} {vars : List Nat} {src : Fn V} {f : (Nat → Nat) → V}
    (hs : HasValue L vars src.shape src.eval f) (hnd : vars.Nodup) (hp : ∀ v ∈ vars, 0 < L v) :
    ∃ F, ofFactor zero vars src = some F ∧ F.vars = vars ∧ F.fn.Ok (vars.map L) defaultOrder ∧
      HasValue L vars F.fn.geometry.shape F.fn.get f := by
  unfold ofFactor
  by_cases h0 : vars = []
  · subst h0
    rw [if_neg (by simp), hasValue_scalar hs (fun _ => 0)]
    refine ⟨_, rfl, rfl, scalar_ok _ _, scalar_hasValue L _ _ _ ?_⟩
    intro x
    exact hasValue_congr hs (by simp [Labels]) (by simp)
  · rw [if_pos (by simpa using h0)]
    obtain ⟨c0, hr, hok, _⟩ := Arr.resize_empty zero (newShape := vars.map L) (by simpa using h0) zero
    rw [hs.shape, hr, Option.bind_some]
    obtain ⟨c, e1, e2, e3⟩ := copyLoop_spec (n := c0.geometry.size) (by rw [hok.1, Arr.dense_size]) hs hnd hp hok
    rw [e1]
    exact ⟨_, rfl, rfl, e2, e3⟩

theorem assignFactor_spec (zero : V) {L : Nat → Nat} {vars : List Nat} {src : Fn V} {f : (Nat → Nat) → V}
    (hs : HasValue L vars src.shape src.eval f) (hnd : vars.Nodup) (hp : ∀ v ∈ vars, 0 < L v) :
    ∃ F, assignFactor zero vars src = some F ∧ F.vars = vars ∧ F.fn.Ok (vars.map L) defaultOrder ∧
      HasValue L vars F.fn.geometry.shape F.fn.get f := by
  unfold assignFactor
  by_cases h0 : vars = []
  · subst h0
    rw [if_neg (by simp), hasValue_scalar hs (fun _ => 0)]
    refine ⟨_, rfl, rfl, scalar_ok _ _, scalar_hasValue L _ _ _ ?_⟩
    intro x
    exact hasValue_congr hs (by simp [Labels]) (by simp)
  · rw [if_pos (by simpa using h0)]
    obtain ⟨c0, hr, hok, _⟩ := Arr.resize_empty zero (newShape := vars.map L) (by simpa using h0) zero
    rw [hs.shape, hr, Option.bind_some]
    obtain ⟨c, e1, e2, e3⟩ := fillIndex_spec hnd (shapeWalkerNext (vars.map L)) f (fun x y hx he => hasValue_congr hs hx he) src.eval
      (e := id) (s0 := shapeWalkerInit (vars.map L)) (n := c0.geometry.size) (by rw [hok.1, Arr.dense_size]) hok
      (by simpa using visits_shapeWalker (positive_map hp)) (by
        intro t hin
        have hl := labelingOf_spec hnd hin
        have h2 := hasValue_read hs hl.2
        rw [hl.1] at h2
        exact h2)
    rw [e1]
    exact ⟨_, rfl, rfl, e2, e3⟩

theorem constant_spec (zero value : V) {L : Nat → Nat} {vars : List Nat} (hne : vars ≠ []) :
    ∃ F, constant zero vars (vars.map L) value = some F ∧ F.vars = vars ∧ F.fn.Ok (vars.map L) defaultOrder ∧
      HasValue L vars F.fn.geometry.shape F.fn.get (fun _ => value) := by
  obtain ⟨c0, hr, hok, hval⟩ := Arr.resize_empty zero (newShape := vars.map L) (by simpa using hne) value
  unfold constant
  rw [hr]
  exact ⟨_, rfl, rfl, hok, hasValue_of_ok hok (fun x hx => hval _ ((inShape_map L x vars).mpr hx))⟩

theorem operateUnary_spec (g : V → V) {L : Nat → Nat} {F : IFactor V} {f : (Nat → Nat) → V} (hok : F.fn.Ok (F.vars.map L) defaultOrder)
    (hf : HasValue L F.vars F.fn.geometry.shape F.fn.get f) (hnd : F.vars.Nodup) :
    ∃ G, operateUnary g F = some G ∧ G.vars = F.vars ∧ G.fn.Ok (F.vars.map L) defaultOrder ∧
      HasValue L F.vars G.fn.geometry.shape G.fn.get (fun x => g (f x)) := by
  obtain ⟨vars, fn⟩ := F
  simp only at hok hf hnd
  unfold operateUnary
  simp only
  by_cases h0 : vars = []
  · subst h0
    obtain ⟨y, rfl⟩ := ok_nil hok
    rw [if_neg (by simp)]
    have hy : ∀ x, f x = y := by
      intro x
      have := hasValue_scalar hf x
      rw [scalar_get] at this
      exact (Option.some.inj this).symm
    have h1 : (Arr.scalar y defaultOrder).getIndex 0 = some y := by
      simp [Arr.getIndex, Arr.scalar, Arr.view, View.atIndex, Geometry.scalar, indexToOffset]
    have h2 : setIndex (Arr.scalar y defaultOrder) 0 (g y) = some (Arr.scalar (g y) defaultOrder) := by
      simp [setIndex, Arr.scalar, Geometry.scalar, indexToOffset, setAt]
    rw [h1]
    simp only [assignIndex]
    rw [h2]
    exact ⟨_, rfl, rfl, scalar_ok _ _, scalar_hasValue L _ _ _ (fun x => by rw [hy x])⟩
  · rw [if_pos (by simpa using h0)]
    have hsize : fn.geometry.size = (vars.map L).prod := by rw [hok.1, Arr.dense_size]
    obtain ⟨c, e1, e2, e3⟩ := fill_spec hnd (fun s : Nat => some (s + 1)) (tupleAt (vars.map L)) (fun x => g (f x))
      (fun x y hx he => by rw [hasValue_congr hf hx he]) (fun s f => assignIndex g f s (f.getIndex s))
      (l := List.range' 0 fn.geometry.size) (n := fn.geometry.size) (by simp) hok (visits_range _ 0) (map_tupleAt hsize) (by
        intro k hk c hc hg hin
        have hk' : k < (vars.map L).prod := by simpa [hsize] using hk
        have ht := tupleAt_some hk'
        have hl := labelingOf_spec hnd hin
        have h2 := hasValue_read hf hl.2
        rw [hl.1] at h2
        rw [getIndex_eq hc ht, hg, h2]
        simp only [assignIndex]
        exact setIndex_eq hc ht _)
    rw [e1]
    exact ⟨_, rfl, rfl, e2, e3⟩

/-! ### fixVariables -/

theorem fixScan_spec (v : Nat) : ∀ (vars : List Nat) (i : Nat), StrictlySorted vars →
    fixScan v vars i = if v ∈ vars then [i + vars.idxOf v] else []
  | [], _, _ => by simp [fixScan]
  | w :: vars, i, h => by
    have h' := List.pairwise_cons.mp h
    unfold fixScan
    by_cases h1 : v < w
    · rw [if_pos h1, if_neg]
      intro hm
      rcases List.mem_cons.mp hm with rfl | hm
      · omega
      · have := h'.1 v hm; omega
    · rw [if_neg h1]
      by_cases h2 : v = w
      · subst h2
        rw [if_pos rfl, if_pos (by simp), fixScan_spec v vars (i + 1) h'.2, if_neg]
        · simp
        · intro hm
          have := h'.1 v hm; omega
      · rw [if_neg h2, fixScan_spec v vars (i + 1) h'.2]
        by_cases hm : v ∈ vars
        · rw [if_pos hm, if_pos (List.mem_cons_of_mem _ hm), List.idxOf_cons_ne _ (fun h => h2 h.symm)]
          congr 1
          omega
        · rw [if_neg hm, if_neg]
          intro h
          rcases List.mem_cons.mp h with h | h
          · exact h2 h
          · exact hm h

theorem fixFind_spec {vars : List Nat} {back : Nat} (hv : StrictlySorted vars) (hback : ∀ v ∈ vars, v ≤ back) (y : Nat → Nat) :
    ∀ idx : List Nat, StrictlySorted idx →
    fixFind vars back idx (idx.map y) = some ((idx.filter (fun v => vars.contains v)).map (fun v => (v, y v, vars.idxOf v)))
  | [], _ => rfl
  | v :: idx, h => by
    have h' := List.pairwise_cons.mp h
    have ih := fixFind_spec hv hback y idx h'.2
    unfold fixFind
    by_cases hb : v > back
    · rw [if_pos hb]
      have : (v :: idx).filter (fun v => vars.contains v) = [] := by
        rw [List.filter_eq_nil_iff]
        intro w hw hc
        have hc' : w ∈ vars := by simpa using hc
        have := hback w hc'
        rcases List.mem_cons.mp hw with rfl | hw
        · omega
        · have := h'.1 w hw; omega
      rw [this]
      rfl
    · rw [if_neg hb, fixScan_spec v vars 0 hv]
      by_cases hm : v ∈ vars
      · rw [if_pos hm, List.filter_cons_of_pos (by simpa using hm)]
        simp only [List.map_cons, ih, Option.map_some, Nat.zero_add]
        rfl
      · rw [if_neg hm, List.filter_cons_of_neg (by simpa using hm)]
        simp only [List.map_cons, ih]

theorem sorted_ext {a b : List Nat} (ha : StrictlySorted a) (hb : StrictlySorted b) (h : ∀ v, v ∈ a ↔ v ∈ b) : a = b := by
  have h1 := sublist_of_sorted ha hb (fun v hv => (h v).mp hv)
  have h2 := sublist_of_sorted hb ha (fun v hv => (h v).mpr hv)
  exact h1.eq_of_length (Nat.le_antisymm h1.length_le h2.length_le)

theorem posFrom_idxOf (fixed : Nat → Bool) : ∀ (vs : List Nat) (d : Nat), vs.Nodup →
    posFrom fixed d vs = (vs.filter fixed).map (fun v => d + vs.idxOf v)
  | [], _, _ => rfl
  | v :: vs, d, h => by
    have h' := List.nodup_cons.mp h
    have ih := posFrom_idxOf fixed vs (d + 1) h'.2
    have hcong : (vs.filter fixed).map (fun w => d + 1 + vs.idxOf w) = (vs.filter fixed).map (fun w => d + (v :: vs).idxOf w) := by
      apply List.map_congr_left
      intro w hw
      have hwv : v ≠ w := fun e => h'.1 (e ▸ List.mem_of_mem_filter hw)
      rw [List.idxOf_cons_ne _ hwv]
      omega
    unfold posFrom
    by_cases hf : fixed v
    · rw [if_pos hf, List.filter_cons_of_pos hf, List.map_cons, ih, hcong]
      simp
    · rw [if_neg hf, List.filter_cons_of_neg hf, ih, hcong]

theorem zip_filter_eq (L : Nat → Nat) (p : Nat → Bool) : ∀ vs : List Nat,
    ((vs.zip (vs.map L)).filter (fun e => p e.1)).map (fun e => e.1) = vs.filter p ∧
    ((vs.zip (vs.map L)).filter (fun e => p e.1)).map (fun e => e.2) = (vs.filter p).map L
  | [] => by simp
  | v :: vs => by
    obtain ⟨h1, h2⟩ := zip_filter_eq L p vs
    simp only [List.map_cons, List.zip_cons_cons]
    by_cases h : p v
    · rw [List.filter_cons_of_pos (by simpa using h), List.filter_cons_of_pos h]
      exact ⟨congrArg _ h1, congrArg _ h2⟩
    · rw [List.filter_cons_of_neg (by simpa using h), List.filter_cons_of_neg h]
      exact ⟨h1, h2⟩

theorem fixVariables_spec (zero : V) {L : Nat → Nat} {F : IFactor V} {f : (Nat → Nat) → V} (hok : F.fn.Ok (F.vars.map L) defaultOrder)
    (hf : HasValue L F.vars F.fn.geometry.shape F.fn.get f) (hs : StrictlySorted F.vars) (hp : ∀ v ∈ F.vars, 0 < L v)
    {idx labels : List Nat} (hi : StrictlySorted idx) (hl : labels.length = idx.length)
    (hlab : ∀ k v l : Nat, idx[k]? = some v → labels[k]? = some l → v ∈ F.vars → l < L v) :
    ∃ G, fixVariables zero F idx labels = some G ∧ G.vars = F.vars.filter (fun v => !idx.contains v) ∧
      G.fn.Ok (G.vars.map L) defaultOrder ∧ HasValue L G.vars G.fn.geometry.shape G.fn.get (fun x => f (override x idx labels)) := by
  obtain ⟨vars, fn⟩ := F
  simp only at hok hf hs hp hlab ⊢
  have hndv := nodup_of_sorted hs
  have hndi := nodup_of_sorted hi
  obtain ⟨y, hy⟩ : ∃ y, labels = idx.map y := ⟨labelingOf idx labels, (map_labelingOf hndi hl).symm⟩
  subst hy
  have hylab : ∀ v ∈ idx, v ∈ vars → y v < L v := by
    intro v hv hm
    obtain ⟨k, hk, he⟩ := List.getElem_of_mem hv
    exact hlab k v (y v) (by rw [List.getElem?_eq_getElem hk, he]) (by rw [List.getElem?_map, List.getElem?_eq_getElem hk, he]; rfl) hm
  have hov : ∀ x v, override x idx (idx.map y) v = if v ∈ idx then y v else x v := fun x v => override_map x y idx v
  have hovlab : ∀ x, Labels L (vars.filter (fun v => !idx.contains v)) x → Labels L vars (override x idx (idx.map y)) := by
    intro x hx v hv
    rw [hov]
    split
    · rename_i h; exact hylab v h hv
    · rename_i h; exact hx v (List.mem_filter.mpr ⟨hv, by simpa using h⟩)
  unfold fixVariables
  simp only
  cases hb : vars.getLast? with
  | none =>
    have h0 := List.getLast?_eq_none_iff.mp hb
    subst h0
    refine ⟨_, rfl, rfl, hok, hf.shape, ?_⟩
    intro x hx rest
    rw [hf.value x hx rest]
    exact congrArg some (hasValue_congr hf hx (by simp))
  | some back =>
    have hback : ∀ v ∈ vars, v ≤ back := by
      obtain ⟨ys, hys⟩ := List.getLast?_eq_some_iff.mp hb
      intro v hv
      rw [hys] at hv hs
      rcases List.mem_append.mp hv with h | h
      · exact Nat.le_of_lt ((List.pairwise_append.mp hs).2.2 v h back (by simp))
      · simp at h; omega
    simp only
    rw [fixFind_spec hs hback y idx hi]
    simp only
    have hfilt : idx.filter (fun v => vars.contains v) = vars.filter (fun v => idx.contains v) := by
      apply sorted_ext (List.Pairwise.sublist List.filter_sublist hi) (List.Pairwise.sublist List.filter_sublist hs)
      intro v
      simp only [List.mem_filter, List.contains_iff_mem]
      exact And.comm
    rw [hfilt, hf.shape, if_neg (by simp)]
    simp only [List.map_map, List.length_map]
    have e1 : (vars.filter (fun v => idx.contains v)).map ((fun t : Nat × Nat × Nat => t.1) ∘ fun v => (v, y v, vars.idxOf v)) =
        vars.filter (fun v => idx.contains v) := List.map_id _
    have e2 : (vars.filter (fun v => idx.contains v)).map ((fun t : Nat × Nat × Nat => t.2.1) ∘ fun v => (v, y v, vars.idxOf v)) =
        (vars.filter (fun v => idx.contains v)).map y := rfl
    have e3 : (vars.filter (fun v => idx.contains v)).map ((fun t : Nat × Nat × Nat => t.2.2) ∘ fun v => (v, y v, vars.idxOf v)) =
        posFrom (fun v => idx.contains v) 0 vars := by
      rw [posFrom_idxOf _ _ _ hndv]
      simp only [Nat.zero_add]
      rfl
    rw [e1, e2, e3]
    have hpred : (fun e : Nat × Nat => !(vars.filter (fun v => idx.contains v)).contains e.1) =
        fun e : Nat × Nat => (fun v => !(vars.filter (fun v => idx.contains v)).contains v) e.1 := rfl
    have hrest : vars.filter (fun v => !(vars.filter (fun v => idx.contains v)).contains v) = vars.filter (fun v => !idx.contains v) := by
      apply List.filter_congr
      intro v hv
      congr 1
      rw [Bool.eq_iff_iff]
      simp [List.mem_filter, hv]
    have hz := zip_filter_eq L (fun v => !(vars.filter (fun v => idx.contains v)).contains v) vars
    rw [hrest] at hz
    rw [hz.1, hz.2]
    by_cases h0 : (vars.filter (fun v => idx.contains v)).length = 0
    · rw [if_pos h0]
      have h0' := List.length_eq_zero_iff.mp h0
      have hall : vars.filter (fun v => !idx.contains v) = vars := by
        rw [List.filter_eq_self]
        intro v hv
        rw [List.filter_eq_nil_iff] at h0'
        simpa using h0' v hv
      refine ⟨_, rfl, hall.symm, hok, hf.shape, ?_⟩
      intro x hx rest
      rw [hf.value x hx rest]
      refine congrArg some (hasValue_congr hf hx ?_)
      intro v hv
      rw [hov, if_neg]
      rw [List.filter_eq_nil_iff] at h0'
      simpa using h0' v hv
    · rw [if_neg h0]
      by_cases h1 : (vars.filter (fun v => idx.contains v)).length = vars.length
      · rw [if_pos h1]
        have h1' := filter_all_of_length h1
        have hsubset : ∀ v ∈ vars, v ∈ idx := by
          intro v hv
          rw [List.filter_eq_self] at h1'
          simpa using h1' v hv
        have hnil : vars.filter (fun v => !idx.contains v) = [] := by
          rw [List.filter_eq_nil_iff]
          intro v hv
          simpa using hsubset v hv
        rw [h1', hasValue_read hf (x := y) (fun v hv => hylab v (hsubset v hv) hv), hnil]
        refine ⟨_, rfl, rfl, scalar_ok _ _, scalar_hasValue L _ _ _ ?_⟩
        intro x
        symm
        apply hasValue_congr hf (fun v hv => hylab v (hsubset v hv) hv)
        intro v hv
        rw [hov, if_pos (hsubset v hv)]
      · rw [if_neg h1]
        obtain ⟨hsz, start, hst, hvis⟩ := visits_sub (fun v => idx.contains v) y L hp hndv
        rw [List.length_map] at hst
        rw [hsz, hst]
        simp only
        have hndr : (vars.filter (fun v => !idx.contains v)).Nodup := hndv.filter _
        obtain ⟨c, c1, c2, c3⟩ := fillIndex_spec hndr (subNext (vars.map L) (posFrom (fun v => idx.contains v) 0 vars))
          (fun x => f (override x idx (idx.map y)))
          (by
            intro x x' hx he
            apply hasValue_congr hf (hovlab x hx)
            intro v hv
            rw [hov, hov]
            split
            · rfl
            · rename_i h; exact he v (List.mem_filter.mpr ⟨hv, by simpa using h⟩))
          fn.get rfl (Arr.make_spec ((vars.filter (fun v => !idx.contains v)).map L) zero defaultOrder).1 hvis (by
            intro t hin
            have hlt := labelingOf_spec hndr hin
            have he : vars.map (fun v => if (idx.contains v) = true then y v else labelingOf (vars.filter (fun v => !idx.contains v)) t v) =
                vars.map (override (labelingOf (vars.filter (fun v => !idx.contains v)) t) idx (idx.map y)) := by
              apply List.map_congr_left
              intro v _
              rw [hov]
              simp only [List.contains_iff_mem]
            rw [he]
            exact hasValue_read hf (hovlab _ hlt.2))
        rw [c1]
        exact ⟨_, rfl, rfl, c2, c3⟩

/-! ### minimum with state -/

/-- The loop of accumulateAllState over the visited states. -/
theorem accStateLoop_visits (bop : V → V → Bool) (accOp : V → V → V) (next : List Nat → Option (List Nat)) (read : List Nat → Option V)
    (val : List Nat → V) : ∀ (l : List (List Nat)) (s : List Nat) (acc : V × List Nat), Visits next s l → (∀ s ∈ l, read s = some (val s)) →
      accStateLoop bop accOp next read l.length s acc =
        some (l.foldl (fun acc s => (accOp (val s) acc.1, if bop (val s) acc.1 then s else acc.2)) acc)
  | [], _, _, _, _ => rfl
  | s :: l, _, acc, ⟨rfl, s', hs, h⟩, hr => by
    simp only [List.length_cons, accStateLoop, hr s (by simp), hs, List.foldl_cons]
    exact accStateLoop_visits bop accOp next read val l s' _ h (fun s hs => hr s (List.mem_cons_of_mem _ hs))

end FactorOps
end OpenGM
