import Verif.Lemmas.AStarSearch
/-
Lemmas for A*: expand and the loops of infer.
-/
namespace OpenGM
namespace AStar
open Spec
variable {V : Type} {e : Env V} {s : Solver V} {p : Problem V} {val : List Nat → V}

/-- The invariant of the search. -/
structure Inv (e : Env V) (s : Solver V) (p : Problem V) (val : List Nat → V) (array : List (Node V)) (found : List (List Nat)) : Prop where
  heap : IsHeap e.comp array
  core : Core e s p val array found

/-- Number of labelings of variables with the given numbers of labels. -/
def leaves (l : List Nat) : Nat := l.prod

theorem openLabels_pos (hc : Ctx e s p val) (k : Nat) : ∀ n ∈ openLabels s k, 0 < n := by
  intro n hn
  simp only [openLabels, List.mem_map] at hn
  obtain ⟨v, hv, rfl⟩ := hn
  have hv' : v < p.numLabels.length := List.mem_range.mp (hc.perm.mem_iff.mp (List.mem_of_mem_drop hv))
  rw [hc.labels, List.getElem?_eq_getElem hv']
  exact hc.positive _ (List.getElem_mem hv')

theorem leaves_pos : ∀ {l : List Nat}, (∀ n ∈ l, 0 < n) → 0 < leaves l
  | [], _ => by simp [leaves]
  | n :: l, h => by
    have h1 := leaves_pos (l := l) (fun m hm => h m (by simp [hm]))
    have h2 := h n (by simp)
    unfold leaves at *
    rw [List.prod_cons]
    exact Nat.mul_pos h2 h1

theorem treeSize_pos (l : List Nat) : 0 < treeSize l := by cases l <;> simp [treeSize]; omega

theorem length_le_weight {g : List Nat → Nat} : ∀ (array : List (Node V)), (∀ a ∈ array, 0 < g (openLabels s a.conf.length)) → array.length ≤ weight s g array
  | [], _ => by simp
  | a :: array, h => by
    have h1 := length_le_weight array (fun b hb => h b (by simp [hb]))
    have h2 := h a (by simp)
    rw [weight_cons, List.length_cons]
    omega

theorem weight_children (g : List Nat → Nat) (zero : V) (conf : List Nat) (bs : List V) (js : List Nat) :
    weight s g (children zero conf bs js) = js.length * g (openLabels s (conf.length + 1)) := by
  induction js with
  | nil => simp [weight, children]
  | cons j js ih =>
    have : children zero conf bs (j :: js) = ⟨conf ++ [j], bs.getD j zero⟩ :: children zero conf bs js := rfl
    rw [this, weight_cons, ih]
    simp only [List.length_append, List.length_cons, List.length_nil, Nat.zero_add]
    rw [Nat.succ_mul, Nat.add_comm]

theorem expand_spec (hc : Ctx e s p val) {a : Node V} {rest : List (Node V)} {found : List (List Nat)} (h : Inv e s p val (a :: rest) found)
    (hlt : a.conf.length < p.numLabels.length) (hmax : 100 * weight s leaves (a :: rest) ≤ 99 * s.para.maxHeapSize) :
    ∃ array', expand e s (a :: rest) = some array' ∧ Inv e s p val array' found ∧ array' ≠ [] ∧
      weight s treeSize array' + 1 = weight s treeSize (a :: rest) ∧ weight s leaves array' = weight s leaves (a :: rest) := by
  obtain ⟨z, hz, hpre⟩ := h.core.valid a (by simp)
  obtain ⟨bs, next, n, b1, b2, b3, b4, b5⟩ := hc.adm z a.conf hz hpre hlt
  have hn : 0 < n := hc.positive n (List.mem_of_getElem? b3)
  have htrim : trim e s.para.maxHeapSize (a :: rest) = a :: rest := by
    unfold trim
    have := length_le_weight (s := s) (g := leaves) (a :: rest) (fun b _ => leaves_pos (openLabels_pos hc _))
    rw [if_neg (by omega)]
  obtain ⟨l', p1, p2, p3⟩ := hc.heap.pop rest a h.heap
  obtain ⟨array', q1, q2, q3⟩ := pushLabels_spec hc.heap a.conf bs (List.range n) l' (fun j hj => by rw [b4]; exact List.mem_range.mp hj) p2
  have q4 : array'.Perm (rest ++ children e.zero a.conf bs (List.range n)) := q3.trans (List.Perm.append_right _ p3)
  have hopen := openLabels_cons b2 (by rw [hc.labels]; exact b3)
  refine ⟨array', ?_, ⟨q2, (h.core.expand hc b2 b3 b4 b5).perm q4⟩, ?_, ?_, ?_⟩
  · unfold expand
    rw [htrim]
    simp only [b1, b2]
    rw [hc.labels, b3]
    simp only
    rw [p1, List.dropLast_concat]
    exact q1
  · intro h0
    have := q4.length_eq
    rw [h0] at this
    simp [children] at this
    omega
  · rw [weight_perm q4, weight_append, weight_children, weight_cons, hopen]
    simp only [treeSize, List.length_range]
    omega
  · rw [weight_perm q4, weight_append, weight_children, weight_cons, hopen]
    simp only [leaves, List.length_range, List.prod_cons]
    omega

/-- The bound is no worse than any labeling not found yet. -/
def BoundOk (e : Env V) (p : Problem V) (val : List Nat → V) (b : V) (found : List (List Nat)) : Prop :=
  ∀ z, p.Labeling z → z ∉ found → e.bop (val z) b = false

theorem Inv.front_bound (hc : Ctx e s p val) {a : Node V} {rest : List (Node V)} {found : List (List Nat)} (h : Inv e s p val (a :: rest) found)
    (hne : ∀ b ∈ a :: rest, b.conf ≠ []) : BoundOk e p val a.value found := by
  intro z hz hzf
  rcases h.core.cover z hz with h1 | ⟨b, hb, h1⟩
  · exact absurd h1 hzf
  · exact hc.order.neg (hc.order.best h.heap hb) (h.core.bound b hb (hne b hb) z hz h1).1

/-- After an expansion no node is the root. -/
theorem expand_nonroot {array' : List (Node V)} {a : Node V} {rest : List (Node V)} (hc : Ctx e s p val) (h : IsHeap e.comp (a :: rest))
    (hap : (a :: rest).Pairwise (fun a b => ¬ a.conf <+: b.conf ∧ ¬ b.conf <+: a.conf))
    (htrim : trim e s.para.maxHeapSize (a :: rest) = a :: rest) (hx : expand e s (a :: rest) = some array') : ∀ b ∈ array', b.conf ≠ [] := by
  unfold expand at hx
  rw [htrim] at hx
  simp only at hx
  split at hx
  · next bound next h1 h2 =>
    split at hx
    · cases hx
    · next n h3 =>
      obtain ⟨l', p1, p2, p3⟩ := hc.heap.pop rest a h
      rw [p1, List.dropLast_concat] at hx
      have key : ∀ (js : List Nat) (array : List (Node V)), IsHeap e.comp array → (∀ b ∈ array, b.conf ≠ []) → ∀ {out}, pushLabels e a.conf bound js array = some out →
          ∀ b ∈ out, b.conf ≠ [] := by
        intro js
        induction js with
        | nil => intro array _ ha out ho; simp only [pushLabels, Option.some.injEq] at ho; subst ho; exact ha
        | cons j js ih =>
          intro array hh ha out ho
          unfold pushLabels at ho
          split at ho
          · cases ho
          · obtain ⟨g1, g2⟩ := hc.heap.push array _ hh
            refine ih _ g1 (fun b hb => ?_) ho
            rcases List.mem_append.mp (g2.mem_iff.mp hb) with hb | hb
            · exact ha b hb
            · simp at hb; subst hb; simp
      refine key _ _ p2 (fun b hb => ?_) hx
      intro h0
      exact ((List.pairwise_cons.mp hap).1 b (p3.mem_iff.mp hb)).2 (by rw [h0]; exact List.nil_prefix)
  · cases hx

theorem expandLoop_spec (hc : Ctx e s p val) (visit : Nat → Bool) {found : List (List Nat)} : ∀ (f : Nat) (r : Run V), Inv e s p val r.array found →
    r.array ≠ [] → weight s treeSize r.array ≤ f → 100 * weight s leaves r.array ≤ 99 * s.para.maxHeapSize →
    ∃ r', expandLoop e s visit f r = some r' ∧ Inv e s p val r'.array found ∧ weight s treeSize r'.array ≤ weight s treeSize r.array ∧
      weight s leaves r'.array = weight s leaves r.array ∧
      (∃ a rest, r'.array = a :: rest ∧ (a.conf.length = p.numLabels.length ∨ r'.stop = true)) ∧
      ((r'.stop = r.stop) ∨ ∃ k, visit k = true) ∧ (r' = r ∨ BoundOk e p val r'.belowBound found) := by
  intro f
  induction f with
  | zero =>
    intro r hI hne hw
    cases hr : r.array with
    | nil => exact absurd hr hne
    | cons a rest =>
      rw [hr, weight_cons] at hw
      have := treeSize_pos (openLabels s a.conf.length)
      omega
  | succ f ih =>
    intro r hI hne hw hmax
    cases hr : r.array with
    | nil => exact absurd hr hne
    | cons a rest =>
      have hle : a.conf.length ≤ p.numLabels.length := by
        obtain ⟨z, _, hz⟩ := hI.core.valid a (by rw [hr]; simp)
        have := hz.length_le
        rwa [enc_length hc] at this
      unfold expandLoop
      rw [hr]
      simp only
      rw [hc.labels]
      by_cases hcond : a.conf.length < p.numLabels.length ∧ r.stop = false
      · rw [if_pos hcond]
        rw [hr] at hI hmax hw
        obtain ⟨array', x1, x2, x3, x4, x5⟩ := expand_spec hc hI hcond.1 hmax
        rw [x1]
        cases ha : array' with
        | nil => exact absurd ha x3
        | cons b array'' =>
          simp only
          subst ha
          obtain ⟨r', y1, y2, y3, y4, y5, y6, y7⟩ := ih ⟨b :: array'', b.value, visit r.calls, r.calls + 1⟩ x2 (by simp) (by simp only; omega) (by simp only; omega)
          refine ⟨r', y1, y2, by simp only at y3; omega, by simp only at y4; omega, y5, ?_, ?_⟩
          · rcases y6 with y6 | y6
            · simp only at y6
              cases hv : visit r.calls with
              | true => exact Or.inr ⟨_, hv⟩
              | false => left; rw [y6, hv, hcond.2]
            · exact Or.inr y6
          · right
            rcases y7 with y7 | y7
            · rw [y7]
              refine x2.front_bound hc (expand_nonroot hc hI.heap hI.core.apart ?_ x1)
              unfold trim
              have := length_le_weight (s := s) (g := leaves) (a :: rest) (fun b _ => leaves_pos (openLabels_pos hc _))
              rw [if_neg (by omega)]
            · exact y7
      · rw [if_neg hcond]
        refine ⟨r, rfl, hI, (by rw [hr]; exact Nat.le_refl _), by rw [hr], ⟨a, rest, hr, ?_⟩, Or.inl rfl, Or.inl rfl⟩
        by_cases hs : r.stop = true
        · exact Or.inr hs
        · left
          have : r.stop = false := by simpa using hs
          have : ¬ a.conf.length < p.numLabels.length := fun h => hcond ⟨h, this⟩
          omega

/-- Reading a complete configuration back. -/
theorem unorder_spec : ∀ (order conf x : List Nat), order.Nodup → (∀ v ∈ order, v < x.length) → conf.length = order.length →
    ∃ y, unorder order conf x = some y ∧ y.length = x.length ∧ (∀ (i v : Nat), order[i]? = some v → y[v]? = conf[i]?) ∧ ∀ v, v ∉ order → y[v]? = x[v]?
  | [], conf, x, _, _, _ => ⟨x, by unfold unorder; rfl, rfl, by simp, fun _ _ => rfl⟩
  | v :: order, [], x, _, _, h => by simp at h
  | v :: order, l :: conf, x, hnd, hlt, hlen => by
    have hnd' := List.nodup_cons.mp hnd
    have hv := hlt v (by simp)
    unfold unorder
    rw [setAt_of_lt l hv]
    simp only
    obtain ⟨y, h1, h2, h3, h4⟩ := unorder_spec order conf (x.set v l) hnd'.2 (fun w hw => by simpa using hlt w (by simp [hw])) (by simpa using hlen)
    refine ⟨y, h1, by simpa using h2, ?_, ?_⟩
    · intro i w hi
      cases i with
      | zero =>
        simp only [List.getElem?_cons_zero, Option.some.injEq] at hi
        subst hi
        rw [h4 v hnd'.1, List.getElem?_set_self hv]
        rfl
      | succ i => simpa using h3 i w (by simpa using hi)
    · intro w hw
      simp only [List.mem_cons, not_or] at hw
      rw [h4 w hw.2, List.getElem?_set_ne (fun h => hw.1 h.symm)]

theorem unorder_enc (hc : Ctx e s p val) {z : List Nat} (hz : p.Labeling z) :
    unorder s.para.nodeOrder (enc s.para.nodeOrder z) (List.replicate p.numLabels.length 0) = some z := by
  have hnd : s.para.nodeOrder.Nodup := hc.perm.nodup_iff.mpr List.nodup_range
  have hmem : ∀ v, v ∈ s.para.nodeOrder ↔ v < p.numLabels.length := fun v => by rw [hc.perm.mem_iff, List.mem_range]
  obtain ⟨y, h1, h2, h3, _⟩ := unorder_spec s.para.nodeOrder (enc s.para.nodeOrder z) (List.replicate p.numLabels.length 0) hnd
    (fun v hv => by simpa using (hmem v).mp hv) (by simp [enc, restrict])
  rw [h1]
  congr 1
  apply List.ext_getElem?
  intro v
  by_cases hv : v < p.numLabels.length
  · obtain ⟨i, hi, hiv⟩ := List.getElem_of_mem ((hmem v).mpr hv)
    have h4 : s.para.nodeOrder[i]? = some v := by rw [List.getElem?_eq_getElem hi, hiv]
    rw [h3 i v h4, enc_get h4]
    have : v < z.length := by rw [hz.1]; exact hv
    simp [List.getD_eq_getElem?_getD, List.getElem?_eq_getElem this]
  · rw [List.getElem?_eq_none (by rw [h2]; simpa using hv), List.getElem?_eq_none (by rw [hz.1]; omega)]

/-- How a call of infer ends. `gone` are the labelings found by earlier calls. -/
structure Result (e : Env V) (s : Solver V) (p : Problem V) (val : List Nat → V) (visit : Nat → Bool) (gone found : List (List Nat)) (r : Run V) (normal : Bool) : Prop where
  best : Best e.bop p val (gone ++ found)
  ends : (normal = true ∧ found.length = s.para.numberOfOpt ∧ Inv e s p val r.array (gone ++ found)) ∨
    (normal = true ∧ ∃ xs x, found = xs ++ [x] ∧ Inv e s p val r.array (gone ++ xs) ∧ (0 < p.numLabels.length → e.bop s.para.objectiveBound (val x) = true)) ∨
    (normal = false ∧ r.array = [] ∧ Inv e s p val r.array (gone ++ found)) ∨ (normal = false ∧ ∃ k, visit k = true)

theorem inferLoop_spec (hc : Ctx e s p val) (visit : Nat → Bool) (inner : Nat) (gone : List (List Nat)) : ∀ (f : Nat) (r : Run V) (found : List (List Nat)),
    Inv e s p val r.array (gone ++ found) → r.stop = false → weight s treeSize r.array ≤ f → weight s treeSize r.array ≤ inner →
    100 * weight s leaves r.array ≤ 99 * s.para.maxHeapSize → found.length ≤ s.para.numberOfOpt →
    (0 < p.numLabels.length → BoundOk e p val r.belowBound (gone ++ found)) →
    ∃ r' found' normal, inferLoop e s visit inner f r found = some (r', found', normal) ∧ Result e s p val visit gone found' r' normal ∧
      found'.length ≤ s.para.numberOfOpt ∧ weight s leaves r'.array ≤ weight s leaves r.array ∧
      (0 < p.numLabels.length → BoundOk e p val r'.belowBound (gone ++ found')) := by
  intro f
  induction f with
  | zero =>
    intro r found hI hs hf hi hmax hle hbo
    have h0 : r.array = [] := by
      cases hr : r.array with
      | nil => rfl
      | cons a rest =>
        rw [hr, weight_cons] at hf
        have := treeSize_pos (openLabels s a.conf.length)
        omega
    refine ⟨r, found, false, ?_, ⟨hI.core.best, Or.inr (Or.inr (Or.inl ⟨rfl, h0, hI⟩))⟩, hle, Nat.le_refl _, hbo⟩
    unfold inferLoop
    rw [if_neg (by simp [h0])]
  | succ f ih =>
    intro r found hI hs hf hi hmax hle hbo
    by_cases h0 : r.array = []
    · refine ⟨r, found, false, ?_, ⟨hI.core.best, Or.inr (Or.inr (Or.inl ⟨rfl, h0, hI⟩))⟩, hle, Nat.le_refl _, hbo⟩
      unfold inferLoop
      rw [if_neg (by simp [h0])]
    · have hpos : r.array.length > 0 := List.length_pos_iff.mpr h0
      unfold inferLoop
      rw [if_pos ⟨hpos, hs⟩]
      by_cases hnum : s.para.numberOfOpt = found.length
      · rw [if_pos hnum]
        exact ⟨r, found, true, rfl, ⟨hI.core.best, Or.inl ⟨rfl, hnum.symm, hI⟩⟩, hle, Nat.le_refl _, hbo⟩
      · rw [if_neg hnum]
        obtain ⟨r1, x1, x2, x3, x4, ⟨a, rest, x5, x6⟩, x7, x8⟩ := expandLoop_spec hc visit inner r hI h0 hi hmax
        rw [x1]
        simp only
        rw [x5]
        simp only
        rw [hc.labels]
        rw [x5] at x2
        obtain ⟨l', p1, p2, p3⟩ := hc.heap.pop rest a x2.heap
        obtain ⟨z, hz, hpre⟩ := x2.core.valid a (by simp)
        have hbo1 : 0 < p.numLabels.length → BoundOk e p val r1.belowBound (gone ++ found) := fun hp => by
          rcases x8 with h8 | h8
          · rw [h8]; exact hbo hp
          · exact h8
        by_cases hfull : p.numLabels.length ≤ a.conf.length
        · rw [if_pos hfull]
          have heq : a.conf = enc s.para.nodeOrder z := by
            have := hpre.length_le
            rw [enc_length hc] at this
            exact hpre.eq_of_length (by rw [enc_length hc]; omega)
          rw [heq, unorder_enc hc hz]
          simp only
          obtain ⟨c1, c2⟩ := x2.core.pop hc (fun b hb => hc.order.best x2.heap (by simp [hb])) hz heq
          have hval : 0 < p.numLabels.length → a.value = val z := fun hp =>
            (x2.core.bound a (by simp) (fun h => by rw [h, List.length_nil] at hfull; omega) z hz hpre).2 (by rw [heq, enc_length hc])
          have hassoc : gone ++ (found ++ [z]) = (gone ++ found) ++ [z] := (List.append_assoc _ _ _).symm
          have hbo2 : 0 < p.numLabels.length → BoundOk e p val a.value (gone ++ (found ++ [z])) := fun hp y hy hyf => by
            rw [hval hp]
            rw [hassoc] at hyf
            exact c2.best z (by simp) y hy hyf
          by_cases hob : e.bop s.para.objectiveBound a.value = true
          · rw [if_pos hob]
            refine ⟨_, _, _, rfl, ⟨by rw [hassoc]; exact c2, Or.inr (Or.inl ⟨rfl, found, z, rfl, x2, fun hp => ?_⟩)⟩, ?_, ?_, hbo2⟩
            · rw [← hval hp]; exact hob
            · rw [List.length_append, List.length_singleton]; omega
            · rw [← x5, x4]; exact Nat.le_refl _
          · rw [if_neg hob]
            rw [p1, List.dropLast_concat]
            have w1 := weight_perm (s := s) (g := treeSize) p3
            have w2 := weight_perm (s := s) (g := leaves) p3
            rw [x5, weight_cons] at x3 x4
            have := treeSize_pos (openLabels s a.conf.length)
            by_cases hstop : r1.stop = true
            · refine ⟨_, _, false, by unfold inferLoop; rw [if_neg (by simp [hstop])], ⟨by rw [hassoc]; exact c2, Or.inr (Or.inr (Or.inr ⟨rfl, ?_⟩))⟩, ?_, ?_, hbo2⟩
              · rcases x7 with x7 | x7
                · rw [hs] at x7; rw [x7] at hstop; cases hstop
                · exact x7
              · rw [List.length_append, List.length_singleton]; omega
              · simp only; omega
            · have hstop' : r1.stop = false := by simpa using hstop
              obtain ⟨r', found', normal, y1, y2, y3, y4, y5⟩ := ih ⟨l', a.value, r1.stop, r1.calls + 1⟩ (found ++ [z])
                ⟨p2, by rw [hassoc]; exact c1.perm p3⟩ hstop' (by simp only; omega) (by simp only; omega) (by simp only; omega)
                (by rw [List.length_append, List.length_singleton]; omega) hbo2
              exact ⟨r', found', normal, y1, y2, y3, by simp only at y4; omega, y5⟩
        · rw [if_neg hfull]
          have hstop : r1.stop = true := by
            rcases x6 with x6 | x6
            · omega
            · exact x6
          rw [p1, List.dropLast_concat]
          refine ⟨{ r1 with array := l' }, found, false, by unfold inferLoop; rw [if_neg (by simp [hstop])], ⟨hI.core.best, Or.inr (Or.inr (Or.inr ⟨rfl, ?_⟩))⟩, hle, ?_, hbo1⟩
          · rcases x7 with x7 | x7
            · rw [hs] at x7; rw [x7] at hstop; cases hstop
            · exact x7
          · have w2 := weight_perm (s := s) (g := leaves) p3
            rw [x5, weight_cons] at x4
            simp only
            omega

end AStar
end OpenGM
