import Verif.Lemmas.FactorMask
/-
Correctness of accumulation.
-/
namespace OpenGM
open Spec
namespace FactorOps
open Marray Geometry Walkers
variable {V : Type}

theorem labelingOf_map {vs : List Nat} (hnd : vs.Nodup) (z : Nat → Nat) {v : Nat} (hv : v ∈ vs) : labelingOf vs (vs.map z) v = z v :=
  map_eq_of (map_labelingOf hnd (by simp)) v hv

theorem notAccumulated_eq (L : Nat → Nat) (viAcc : List Nat) : ∀ (vs : List Nat) (d : Nat),
    let rest := (vs.zip ((vs.map L).zip (List.range' d vs.length))).filter (fun e => !viAcc.contains e.1)
    rest.map (fun e => e.1) = vs.filter (fun v => !viAcc.contains v) ∧
    rest.map (fun e => e.2.1) = (vs.filter (fun v => !viAcc.contains v)).map L ∧
    rest.map (fun e => e.2.2) = posFrom (fun v => !viAcc.contains v) d vs
  | [], _ => by simp [posFrom]
  | v :: vs, d => by
    obtain ⟨h1, h2, h3⟩ := notAccumulated_eq L viAcc vs (d + 1)
    simp only [List.map_cons, List.length_cons, List.range'_succ, List.zip_cons_cons]
    by_cases h : viAcc.contains v
    · simp only [h, Bool.not_true, Bool.false_eq_true, not_false_eq_true, List.filter_cons_of_neg, posFrom, if_false]
      exact ⟨h1, h2, h3⟩
    · simp only [Bool.not_eq_true] at h
      simp only [h, Bool.not_false, List.filter_cons_of_pos, posFrom, if_true, List.map_cons]
      exact ⟨congrArg _ h1, congrArg _ h2, congrArg _ h3⟩

theorem notAccumulated_spec (L : Nat → Nat) (vs viAcc : List Nat) :
    (notAccumulated vs (vs.map L) viAcc).map (fun e => e.1) = vs.filter (fun v => !viAcc.contains v) ∧
    (notAccumulated vs (vs.map L) viAcc).map (fun e => e.2.1) = (vs.filter (fun v => !viAcc.contains v)).map L ∧
    (notAccumulated vs (vs.map L) viAcc).map (fun e => e.2.2) = posFrom (fun v => !viAcc.contains v) 0 vs := by
  have := notAccumulated_eq L viAcc vs 0
  rw [← List.range_eq_range'] at this
  exact this

theorem labels_override {L x : Nat → Nat} {vs acc t : List Nat} (hnd : acc.Nodup) (ht : InShape (acc.map L) t)
    (hx : ∀ v ∈ vs, v ∉ acc → x v < L v) : Labels L vs (override x acc t) := by
  obtain ⟨h1, h2⟩ := labelingOf_spec hnd ht
  intro v hv
  rw [← h1, override_map]
  split
  · rename_i h; exact h2 v h
  · rename_i h; exact hx v hv h

theorem foldl_congr_mem {α β : Type} {f g : β → α → β} : ∀ (l : List α) (b : β), (∀ b, ∀ a ∈ l, f b a = g b a) → l.foldl f b = l.foldl g b
  | [], _, _ => rfl
  | a :: l, b, h => by
    simp only [List.foldl_cons]
    rw [h b a (by simp), foldl_congr_mem l _ (fun b a ha => h b a (List.mem_cons_of_mem _ ha))]

/-- The accumulated value depends on the labels of the other variables only. -/
theorem marginal_congr {accOp : V → V → V} {neutral : V} {L : Nat → Nat} {vs acc shape : List Nat} {read : List Nat → Option V}
    {f : (Nat → Nat) → V} (hf : HasValue L vs shape read f) (hnd : acc.Nodup) {x y : Nat → Nat}
    (hx : ∀ v ∈ vs, v ∉ acc → x v < L v) (he : ∀ v ∈ vs, v ∉ acc → x v = y v) :
    marginal accOp neutral L acc f x = marginal accOp neutral L acc f y := by
  unfold marginal
  apply foldl_congr_mem
  intro b t ht
  have hin := (mem_allTuples _ _).mp ht
  have h1 := (labelingOf_spec hnd hin).1
  rw [hasValue_congr hf (labels_override hnd hin hx) (y := override y acc t)]
  intro v hv
  rw [← h1, override_map, override_map]
  split
  · rfl
  · rename_i h; exact he v hv h

theorem accumulateAll_spec (accOp : V → V → V) (neutral : V) {L : Nat → Nat} {a : Fn V} {vs : List Nat} {f : (Nat → Nat) → V}
    (ha : HasValue L vs a.shape a.eval f) (hnd : vs.Nodup) (hp : ∀ v ∈ vs, 0 < L v) (x : Nat → Nat) :
    accumulateAll accOp neutral a = some (marginal accOp neutral L vs f x) := by
  unfold accumulateAll
  by_cases h0 : vs = []
  · subst h0
    rw [if_neg (by rw [ha.shape]; simp), hasValue_scalar ha x]
    simp [marginal, allTuples, override]
  · rw [if_pos (by rw [ha.shape]; simpa using h0), ha.shape, foldl_mul_prod, ← length_allTuples]
    rw [accLoop_visits accOp _ _ (fun t => f (override x vs t)) _ _ _ (visits_shapeWalker (positive_map hp))]
    · rfl
    · intro t ht
      have hin := (mem_allTuples _ _).mp ht
      have h1 := labelingOf_spec hnd hin
      have h2 := hasValue_read ha h1.2
      rw [h1.1] at h2
      rw [h2]
      refine congrArg some (hasValue_congr ha h1.2 ?_)
      intro v hv
      conv_rhs => rw [← h1.1, override_map]
      rw [if_pos hv]

/-- The double loop. -/
theorem accumulateLoops_spec (accOp : V → V → V) (neutral : V) {L : Nat → Nat} {shape vs viAcc : List Nat} {read : List Nat → Option V}
    {f : (Nat → Nat) → V} {o : Order} {b : Arr V} (ha : HasValue L vs shape read f) (hnd : vs.Nodup) (hp : ∀ v ∈ vs, 0 < L v)
    (hb : b.Ok ((vs.filter (fun v => !viAcc.contains v)).map L) o) :
    ∃ c, accumulateLoops accOp neutral read (vs.map L) ((vs.filter (fun v => !viAcc.contains v)).map L)
        (posFrom (fun v => !viAcc.contains v) 0 vs) b = some c ∧ c.Ok ((vs.filter (fun v => !viAcc.contains v)).map L) o ∧
      HasValue L (vs.filter (fun v => !viAcc.contains v)) c.geometry.shape c.get
        (marginal accOp neutral L (vs.filter (fun v => viAcc.contains v)) f) := by
  have hff : vs.filter (fun v => !!viAcc.contains v) = vs.filter (fun v => viAcc.contains v) := by simp
  have hrest : (vs.filter (fun v => !viAcc.contains v)).Nodup := hnd.filter _
  have hacc : (vs.filter (fun v => viAcc.contains v)).Nodup := hnd.filter _
  have hprest : ∀ v ∈ vs.filter (fun v => !viAcc.contains v), 0 < L v := fun v hv => hp v (List.mem_of_mem_filter hv)
  have hmemrest : ∀ v ∈ vs, v ∉ vs.filter (fun v => viAcc.contains v) → v ∈ vs.filter (fun v => !viAcc.contains v) := by
    intro v hv hn
    rw [List.mem_filter] at hn ⊢
    refine ⟨hv, ?_⟩
    cases h : viAcc.contains v with
    | false => rfl
    | true => exact absurd ⟨hv, h⟩ hn
  have hsub := (visits_sub (fun v => !viAcc.contains v) id L hp hnd).1
  have hsize : b.geometry.size = ((vs.filter (fun v => !viAcc.contains v)).map L).prod := by rw [hb.1, Arr.dense_size]
  unfold accumulateLoops
  rw [hsub]
  simp only
  refine fill_spec hrest _ id _ ?_ _ (l := allTuples ((vs.filter (fun v => !viAcc.contains v)).map L))
    (by rw [length_allTuples, hsize]) hb (visits_shapeWalker (positive_map hprest)) (by simp) ?_
  · intro x y hx he
    exact marginal_congr ha hacc (fun v hv hn => hx v (hmemrest v hv hn)) (fun v hv hn => he v (hmemrest v hv hn))
  · intro s _ c _ _ hin
    rw [id] at hin
    simp only [id]
    have hl := labelingOf_spec hrest hin
    obtain ⟨start, h1, h2⟩ := (visits_sub (fun v => !viAcc.contains v)
      (labelingOf (vs.filter (fun v => !viAcc.contains v)) s) L hp hnd).2
    simp only [hff] at h2 hsub ⊢
    rw [hl.1] at h1
    rw [h1]
    simp only
    have hval := accLoop_visits accOp (subNext (vs.map L) (posFrom (fun v => !viAcc.contains v) 0 vs)) read
      (fun t => f (labelingOf vs t)) _ start neutral h2 (by
        intro u hu
        obtain ⟨t, ht, rfl⟩ := List.mem_map.mp hu
        have hint := (mem_allTuples _ _).mp ht
        have hlt := labelingOf_spec hacc hint
        have hlab : Labels L vs (fun v => if (!viAcc.contains v) = true then labelingOf (vs.filter (fun v => !viAcc.contains v)) s v
            else labelingOf (vs.filter (fun v => viAcc.contains v)) t v) := by
          intro v hv
          simp only
          by_cases h : viAcc.contains v
          · simp only [h, Bool.not_true, Bool.false_eq_true, if_false]
            exact hlt.2 v (List.mem_filter.mpr ⟨hv, h⟩)
          · simp only [Bool.not_eq_true] at h
            simp only [h, Bool.not_false, if_true]
            exact hl.2 v (List.mem_filter.mpr ⟨hv, by simpa using h⟩)
        rw [hasValue_read ha hlab]
        refine congrArg some (hasValue_congr ha hlab ?_)
        intro v hv
        rw [labelingOf_map hnd _ hv])
    rw [List.length_map, length_allTuples] at hval
    rw [hval]
    simp only [assign1, id]
    congr 1
    rw [List.foldl_map]
    unfold marginal
    apply foldl_congr_mem
    intro b t ht
    have hint := (mem_allTuples _ _).mp ht
    have hlt := labelingOf_spec hacc hint
    congr 1
    symm
    apply hasValue_congr ha (labels_override hacc hint (fun v hv hn => hl.2 v (hmemrest v hv hn)))
    intro v hv
    rw [labelingOf_map hnd _ hv]
    conv_lhs => rw [← hlt.1, override_map]
    by_cases h : viAcc.contains v
    · rw [if_pos (List.mem_filter.mpr ⟨hv, h⟩)]
      simp only [h, Bool.not_true, Bool.false_eq_true, if_false]
    · simp only [Bool.not_eq_true] at h
      rw [if_neg (by rw [List.mem_filter]; simp only [h]; simp)]
      simp only [h, Bool.not_false, if_true]

theorem filter_all_of_length {α : Type} {p : α → Bool} {l : List α} (h : (l.filter p).length = l.length) : l.filter p = l :=
  List.filter_sublist.eq_of_length h

theorem marginal_nil (accOp : V → V → V) (neutral : V) (L : Nat → Nat) (f : (Nat → Nat) → V) (x : Nat → Nat) :
    marginal accOp neutral L [] f x = accOp (f x) neutral := by
  simp only [marginal, List.map_nil, allTuples, List.foldl_cons, List.foldl_nil]
  rfl

theorem filter_contains_split {vs acc : List Nat} (h : vs.filter (fun v => !acc.contains v) = []) : vs.filter (fun v => acc.contains v) = vs := by
  rw [List.filter_eq_self]
  intro v hv
  rw [List.filter_eq_nil_iff] at h
  have := h v hv
  simpa using this

theorem filter_contains_none {vs acc : List Nat} (h : vs.filter (fun v => !acc.contains v) = vs) : vs.filter (fun v => acc.contains v) = [] := by
  rw [List.filter_eq_nil_iff]
  intro v hv
  rw [List.filter_eq_self] at h
  have := h v hv
  simpa using this

theorem accumulateSome_spec (zero : V) (accOp : V → V → V) (neutral : V) (hneutral : ∀ v, accOp v neutral = v)
    {L : Nat → Nat} {a : Fn V} {vs : List Nat} (viAcc : List Nat) {f : (Nat → Nat) → V}
    (ha : HasValue L vs a.shape a.eval f) (hnd : vs.Nodup) (hp : ∀ v ∈ vs, 0 < L v) (hne : vs ≠ []) :
    ∃ c, accumulateSome zero accOp neutral a vs viAcc = some (c, vs.filter (fun v => !viAcc.contains v)) ∧
      c.Ok ((vs.filter (fun v => !viAcc.contains v)).map L) defaultOrder ∧
      HasValue L (vs.filter (fun v => !viAcc.contains v)) c.geometry.shape c.get
        (marginal accOp neutral L (vs.filter (fun v => viAcc.contains v)) f) := by
  obtain ⟨n1, n2, n3⟩ := notAccumulated_spec L vs viAcc
  have nlen : (notAccumulated vs (vs.map L) viAcc).length = (vs.filter (fun v => !viAcc.contains v)).length := by rw [← n1]; simp
  unfold accumulateSome
  rw [if_pos (by rw [ha.shape]; simpa using hne), if_neg (by rw [ha.shape]; simp)]
  simp only [ha.shape]
  rw [n1, n2, n3, nlen]
  by_cases h0 : (vs.filter (fun v => !viAcc.contains v)).length = 0
  · rw [if_pos h0]
    have h0' := List.length_eq_zero_iff.mp h0
    rw [accumulateAll_spec accOp neutral ha hnd hp (fun _ => 0)]
    simp only
    rw [h0', filter_contains_split h0']
    refine ⟨Arr.scalar (marginal accOp neutral L vs f (fun _ => 0)) defaultOrder, ?_, scalar_ok _ _, ?_⟩
    · have : (Arr.empty : Arr V).resize zero [] zero = some (.scalar zero defaultOrder) := by
        simp [Arr.resize, Arr.empty, Geometry.empty]
      rw [this, Option.bind_some, scalar_set, Option.map_some]
    · refine scalar_hasValue L _ _ _ (fun x => ?_)
      exact marginal_congr ha hnd (fun v hv hn => absurd hv hn) (fun v hv hn => absurd hv hn)
  · rw [if_neg h0]
    obtain ⟨b0, hr, hok, _⟩ := Arr.resize_empty zero (newShape := (vs.filter (fun v => !viAcc.contains v)).map L)
      (by intro h; exact h0 (by simpa using congrArg List.length h)) zero
    rw [hr, Option.bind_some, Option.bind_some]
    by_cases h1 : (vs.filter (fun v => !viAcc.contains v)).length = (vs.map L).length
    · rw [if_pos h1]
      rw [List.length_map] at h1
      have h1' := filter_all_of_length h1
      rw [h1'] at hok ⊢
      obtain ⟨c, e1, e2, e3⟩ := fill_spec hnd (shapeWalkerNext (vs.map L)) id f
        (fun x y hx he => hasValue_congr ha hx he) (fun s b => assign1 id b s (a.eval s)) (l := allTuples (vs.map L))
        (n := (vs.map L).foldl (· * ·) 1) (by rw [length_allTuples, foldl_mul_prod]) hok (visits_shapeWalker (positive_map hp)) (by simp) (by
          intro s _ c _ _ hin
          have hl := labelingOf_spec hnd hin
          rw [id] at hl
          have h2 := hasValue_read ha hl.2
          rw [hl.1] at h2
          simp only [id]
          rw [h2]
          rfl)
      rw [e1, filter_contains_none h1']
      refine ⟨c, rfl, e2, e3.shape, ?_⟩
      intro x hx rest
      rw [e3.value x hx rest, marginal_nil, hneutral]
    · rw [if_neg h1]
      obtain ⟨c, e1, e2, e3⟩ := accumulateLoops_spec accOp neutral (viAcc := viAcc) ha hnd hp hok
      rw [e1]
      exact ⟨c, rfl, e2, e3⟩

theorem accumulateInplace_spec (zero : V) (accOp : V → V → V) (neutral : V) (hneutral : ∀ v, accOp v neutral = v)
    {L : Nat → Nat} {a : Arr V} {vs : List Nat} (viAcc : List Nat) {f : (Nat → Nat) → V} {o : Order} (hok : a.Ok (vs.map L) o)
    (ha : HasValue L vs a.geometry.shape a.get f) (hnd : vs.Nodup) (hp : ∀ v ∈ vs, 0 < L v) (hne : vs ≠ []) :
    ∃ c, accumulateInplace zero accOp neutral a vs viAcc = some (c, vs.filter (fun v => !viAcc.contains v)) ∧
      (∃ o', (o' = o ∨ o' = defaultOrder) ∧ c.Ok ((vs.filter (fun v => !viAcc.contains v)).map L) o') ∧
      HasValue L (vs.filter (fun v => !viAcc.contains v)) c.geometry.shape c.get
        (marginal accOp neutral L (vs.filter (fun v => viAcc.contains v)) f) := by
  obtain ⟨n1, n2, n3⟩ := notAccumulated_spec L vs viAcc
  have nlen : (notAccumulated vs (vs.map L) viAcc).length = (vs.filter (fun v => !viAcc.contains v)).length := by rw [← n1]; simp
  unfold accumulateInplace
  rw [if_pos (by rw [ha.shape]; simpa using hne), if_neg (by rw [ha.shape]; simp)]
  simp only [ha.shape]
  rw [n1, n2, n3, nlen]
  by_cases h0 : (vs.filter (fun v => !viAcc.contains v)).length = 0
  · rw [if_pos h0]
    have h0' := List.length_eq_zero_iff.mp h0
    rw [accumulateAll_spec accOp neutral (ofArr_hasValue ha) hnd hp (fun _ => 0)]
    simp only
    rw [h0', filter_contains_split h0']
    refine ⟨Arr.scalar (marginal accOp neutral L vs f (fun _ => 0)) defaultOrder, ?_, ⟨_, Or.inr rfl, scalar_ok _ _⟩, ?_⟩
    · have : (Arr.empty : Arr V).resize zero [] zero = some (.scalar zero defaultOrder) := by
        simp [Arr.resize, Arr.empty, Geometry.empty]
      rw [this, Option.bind_some, scalar_set, Option.map_some]
    · refine scalar_hasValue L _ _ _ (fun x => ?_)
      exact marginal_congr ha hnd (fun v hv hn => absurd hv hn) (fun v hv hn => absurd hv hn)
  · rw [if_neg h0]
    by_cases h1 : (vs.filter (fun v => !viAcc.contains v)).length = (vs.map L).length
    · rw [if_pos h1]
      rw [List.length_map] at h1
      have h1' := filter_all_of_length h1
      rw [h1', filter_contains_none h1']
      refine ⟨a, rfl, ⟨o, Or.inl rfl, hok⟩, ha.shape, ?_⟩
      intro x hx rest
      rw [ha.value x hx rest, marginal_nil, hneutral]
    · rw [if_neg h1]
      obtain ⟨b0, hr, hok, _⟩ := Arr.resize_empty zero (newShape := (vs.filter (fun v => !viAcc.contains v)).map L)
        (by intro h; exact h0 (by simpa using congrArg List.length h)) zero
      rw [hr, Option.bind_some]
      obtain ⟨c, e1, e2, e3⟩ := accumulateLoops_spec accOp neutral (viAcc := viAcc) ha hnd hp hok
      rw [e1]
      exact ⟨c, rfl, ⟨_, Or.inr rfl, e2⟩, e3⟩

end FactorOps
end OpenGM
