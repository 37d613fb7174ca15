import Verif.Lemmas.Functions
/-
The structure predicates of FunctionBase.
-/
namespace OpenGM
namespace Functions
open Walkers Spec FactorOps

variable {V : Type}

/-! ### isPotts -/

theorem isEqualValueVector_iff (c : List Nat) : isEqualValueVector c = true ↔ AllEqual c := by
  cases c with
  | nil => simp [isEqualValueVector, AllEqual]
  | cons x xs =>
    simp only [isEqualValueVector, List.all_eq_true, decide_eq_true_eq]
    constructor
    · intro h i j hi hj
      rw [List.getElem?_eq_getElem hi, List.getElem?_eq_getElem hj, ← h _ (List.getElem_mem hi), ← h _ (List.getElem_mem hj)]
    · intro h y hy
      obtain ⟨i, hi, rfl⟩ := List.getElem_of_mem hy
      have := h 0 i (by simp) hi
      rw [List.getElem?_eq_getElem hi] at this
      simpa using this

theorem allEqual_cons {x : Nat} {t : List Nat} : AllEqual (x :: t) ↔ t = List.replicate t.length x := by
  rw [← isEqualValueVector_iff, isEqualValueVector]
  simp only [List.all_eq_true, decide_eq_true_eq, List.eq_replicate_iff, true_and, List.mem_cons, forall_eq_or_imp]
  exact ⟨fun h y hy => (h y hy).symm, fun h y hy => (h y hy).symm⟩

theorem allEqual_zeros (n : Nat) : AllEqual (List.replicate n 0) := by
  intro i j hi hj
  simp only [List.length_replicate] at hi hj
  simp [List.getElem?_replicate, hi, hj]

/-- Of order two and more, the second tuple is not constant. -/
theorem second_not_equal : ∀ (shape : List Nat), Positive shape → 2 ≤ shape.length → ∀ (c0 c1 : List Nat) (rest : List (List Nat)),
    allTuples shape = c0 :: c1 :: rest → ¬ AllEqual c1
  | [], _, h, _, _, _, _ => by simp at h
  | n :: shape, hp, hl, c0, c1, rest, h => by
    have hp' : Positive shape := fun m hm => hp m (List.mem_cons_of_mem _ hm)
    obtain ⟨r, hr⟩ := zeros_head shape hp'
    have hn : 0 < n := hp n (by simp)
    have hs : 0 < shape.length := by simp only [List.length_cons] at hl; omega
    simp only [allTuples] at h
    rcases Nat.lt_or_ge n 2 with h2 | h2
    · have : n = 1 := by omega
      subst this
      have e : (allTuples shape).flatMap (fun t => (List.range 1).map (fun d => d :: t)) = (allTuples shape).map (fun t => 0 :: t) := by
        rw [List.map_eq_flatMap]
        rfl
      rw [e] at h
      have hnd := nodup_allTuples shape
      rw [hr] at h hnd
      cases hr2 : r with
      | nil => rw [hr2] at h; simp at h
      | cons t1 r' =>
        rw [hr2] at h hnd
        simp only [List.map_cons, List.cons.injEq] at h
        obtain ⟨_, rfl, _⟩ := h
        intro ha
        rw [allEqual_cons] at ha
        have hlen : t1.length = shape.length := by
          apply inShape_length
          rw [← mem_allTuples, hr, hr2]; simp
        rw [hlen] at ha
        simp [← ha] at hnd
    · obtain ⟨m, rfl⟩ : ∃ m, n = m + 2 := ⟨n - 2, by omega⟩
      rw [hr] at h
      simp only [List.flatMap_cons, List.range_succ_eq_map, List.map_cons, List.cons_append, List.cons.injEq] at h
      obtain ⟨_, rfl, _⟩ := h
      intro ha
      rw [allEqual_cons, List.length_replicate] at ha
      obtain ⟨k, hk⟩ : ∃ k, shape.length = k + 1 := ⟨shape.length - 1, by omega⟩
      rw [hk] at ha
      simp [List.replicate_succ] at ha

theorem isPotts_spec [LinearOrder V] [CommRing V] {f : Fun V} {shape : List Nat} {g : List Nat → V} (hp : Positive shape)
    (hd : shape.length ≠ 1) (hf : Denotes f shape g) : ∃ r, isPotts f = some r ∧ (r = true ↔ IsPottsTable shape g) := by
  have hlen := length_allTuples shape
  obtain ⟨r0, h0⟩ := zeros_head shape hp
  unfold isPotts
  rw [hf.size_eq, hf.shape_eq]
  have hd2 : 2 ≤ shape.length ∨ shape = [] := by
    cases shape with
    | nil => exact Or.inr rfl
    | cons a s => simp only [List.length_cons] at hd ⊢; left; omega
  by_cases h2 : shape.prod ≤ 2
  · rw [if_pos h2]
    suffices h : IsPottsTable shape g from ⟨true, rfl, by simp [h]⟩
    rcases hd2 with hd2 | rfl
    · cases r0 with
      | nil =>
        refine ⟨g (List.replicate shape.length 0), g (List.replicate shape.length 0), fun c hc => ?_⟩
        have := (mem_allTuples _ _).mpr hc
        rw [h0] at this
        simp only [List.mem_singleton] at this
        subst this
        simp
      | cons c1 r1 =>
        have hr1 : r1 = [] := by
          rw [h0] at hlen
          simp only [List.length_cons] at hlen
          exact List.length_eq_zero_iff.mp (by omega)
        subst hr1
        have hne := second_not_equal shape hp hd2 _ _ _ h0
        refine ⟨g (List.replicate shape.length 0), g c1, fun c hc => ?_⟩
        have := (mem_allTuples _ _).mpr hc
        rw [h0] at this
        simp only [List.mem_cons, List.not_mem_nil, or_false] at this
        rcases this with rfl | rfl
        · exact ⟨fun _ => rfl, fun h => absurd (allEqual_zeros _) h⟩
        · exact ⟨fun h => absurd h hne, fun _ => rfl⟩
    · refine ⟨g [], g [], fun c hc => ?_⟩
      have := (mem_allTuples _ _).mpr hc
      simp only [allTuples, List.mem_singleton] at this
      subst this
      simp
  · rw [if_neg h2]
    rcases hd2 with hd2 | rfl
    swap
    · simp at h2
    cases r0 with
    | nil => rw [h0] at hlen; simp only [List.length_cons, List.length_nil] at hlen; omega
    | cons c1 rest =>
      have hv := visits_shapeWalker hp
      rw [h0] at hv
      obtain ⟨_, s1, hs1, h1, s2, hs2, hv2⟩ := hv
      subst h1
      have hin : ∀ c ∈ allTuples shape, f.eval c = some (g c) := fun c hc => hf.eval_eq c ((mem_allTuples _ _).mp hc)
      rw [h0] at hin
      have e0 : f.eval (shapeWalkerInit shape) = some (g (List.replicate shape.length 0)) := hin _ (by simp [shapeWalkerInit])
      rw [e0, hs1]
      simp only
      rw [hin s1 (by simp), hs2]
      simp only
      have hsz : shape.prod - 2 = rest.length := by
        rw [h0] at hlen; simp only [List.length_cons] at hlen; omega
      rw [hsz, checkLoop_visits _ _ (fun c => if isEqualValueVector c then decide (g (List.replicate shape.length 0) = g c)
        else decide (g s1 = g c)) rest s2 hv2]
      · refine ⟨_, rfl, ?_⟩
        have hne := second_not_equal shape hp hd2 _ _ _ h0
        have hmem : ∀ c, InShape shape c ↔ c = List.replicate shape.length 0 ∨ c = s1 ∨ c ∈ rest := by
          intro c; rw [← mem_allTuples, h0]; simp
        simp only [List.all_eq_true]
        constructor
        · intro h
          refine ⟨g (List.replicate shape.length 0), g s1, fun c hc => ?_⟩
          rcases (hmem c).mp hc with rfl | rfl | hc
          · exact ⟨fun _ => rfl, fun h => absurd (allEqual_zeros _) h⟩
          · exact ⟨fun h => absurd h hne, fun _ => rfl⟩
          · have := h c hc
            by_cases ha : isEqualValueVector c = true
            · rw [if_pos ha, decide_eq_true_eq] at this
              exact ⟨fun _ => this.symm, fun hn => absurd ((isEqualValueVector_iff c).mp ha) hn⟩
            · rw [if_neg ha, decide_eq_true_eq] at this
              exact ⟨fun hy => absurd ((isEqualValueVector_iff c).mpr hy) ha, fun _ => this.symm⟩
        · rintro ⟨e, n, h⟩ c hc
          have hc' := h c ((hmem c).mpr (Or.inr (Or.inr hc)))
          have hz := (h _ ((hmem _).mpr (Or.inl rfl))).1 (allEqual_zeros _)
          have h1 := (h s1 ((hmem _).mpr (Or.inr (Or.inl rfl)))).2 hne
          by_cases ha : isEqualValueVector c = true
          · rw [if_pos ha, decide_eq_true_eq, hz, hc'.1 ((isEqualValueVector_iff c).mp ha)]
          · rw [if_neg ha, decide_eq_true_eq, h1, hc'.2 (fun h => ha ((isEqualValueVector_iff c).mpr h))]
      · intro c hc
        rw [hin c (by simp [hc])]

/-! ### isGeneralizedPotts -/

theorem nestedLoops_spec (check : List Nat → Option Bool) (b : List Nat → Bool) : ∀ (shape l : List Nat),
    (∀ c, InShape shape c → check (l ++ c) = some (b (l ++ c))) →
    ∃ r, nestedLoops check shape l = some r ∧ (r = true ↔ ∀ c, InShape shape c → b (l ++ c) = true)
  | [], l, h => by
    have := h [] trivial
    rw [List.append_nil] at this
    refine ⟨b l, this, ?_⟩
    constructor
    · intro hb c hc
      cases c with
      | nil => simpa using hb
      | cons _ _ => exact hc.elim
    · intro h; simpa using h [] trivial
  | n :: shape, l, h => by
    have ih : ∀ x, x < n → ∃ r, nestedLoops check shape (l ++ [x]) = some r ∧
        (r = true ↔ ∀ c, InShape shape c → b ((l ++ [x]) ++ c) = true) := by
      intro x hx
      apply nestedLoops_spec check b shape (l ++ [x])
      intro c hc
      have := h (x :: c) ⟨hx, hc⟩
      simpa using this
    classical
    have ih' : ∀ x ∈ List.range n, nestedLoops check shape (l ++ [x]) =
        some (decide (∀ c, InShape shape c → b ((l ++ [x]) ++ c) = true)) := by
      intro x hx
      obtain ⟨r, h1, h2⟩ := ih x (List.mem_range.mp hx)
      rw [h1]
      congr 1
      rw [Bool.eq_iff_iff, h2, decide_eq_true_iff]
    rw [nestedLoops, allM_spec _ _ _ ih']
    refine ⟨_, rfl, ?_⟩
    simp only [List.all_eq_true, List.mem_range, decide_eq_true_eq]
    constructor
    · intro h c hc
      match c, hc with
      | x :: c, ⟨hx, hc⟩ => simpa using h x hx c hc
    · intro h x hx c hc
      simpa using h (x :: c) ⟨hx, hc⟩

theorem readAll_spec [CommRing V] [LinearOrder V] {f : Fun V} {g : List Nat → V} : ∀ (cs : List (List Nat)), (∀ c ∈ cs, f.eval c = some (g c)) →
    readAll f cs = some (cs.map g)
  | [], _ => rfl
  | c :: cs, h => by
    rw [readAll, h c (by simp), readAll_spec cs (fun c hc => h c (List.mem_cons_of_mem _ hc))]
    rfl

theorem checkCases_spec [CommRing V] [LinearOrder V] (x : V) (l : List Nat) (g : List Nat → V) :
    ∀ (cs : List (List (Nat × Nat × Bool) × List Nat)),
    (checkCases x l (cs.map (·.1)) ((cs.map (·.2)).map g) = true ↔ ∀ p ∈ cs, pattern l p.1 = true → x = g p.2)
  | [] => by simp [checkCases]
  | p :: cs => by
    simp only [List.map_cons, checkCases]
    have ih := checkCases_spec x l g cs
    by_cases h : (pattern l p.1 && decide (x ≠ g p.2)) = true
    · rw [if_pos h]
      simp only [Bool.and_eq_true, decide_eq_true_eq] at h
      constructor
      · intro h'; simp at h'
      · intro h'; exact absurd (h' p (by simp) h.1) h.2
    · rw [if_neg h, ih]
      simp only [Bool.and_eq_true, decide_eq_true_eq, not_and, ne_eq, not_not] at h
      simp only [List.mem_cons, forall_eq_or_imp]
      exact ⟨fun h' => ⟨h, h'⟩, fun h' => h'.2⟩

/-- A list of cases that covers all the partitions of `n` elements, with correct representatives. -/
structure Complete (n : Nat) (cs : List (List (Nat × Nat × Bool) × List Nat)) : Prop where
  covers : ∀ l : List Nat, l.length = n → ∃ p ∈ cs, pattern l p.1 = true
  same : ∀ p ∈ cs, ∀ l l' : List Nat, l.length = n → l'.length = n → pattern l p.1 = true → pattern l' p.1 = true → SamePartition l l'
  reference : ∀ p ∈ cs, p.2.length = n ∧ pattern p.2 p.1 = true ∧ ∀ x ∈ p.2, x < n

theorem inShape_of_forall : ∀ (shape c : List Nat) (n : Nat), (∀ m ∈ shape, n ≤ m) → c.length = shape.length → (∀ x ∈ c, x < n) →
    InShape shape c
  | [], [], _, _, _, _ => trivial
  | m :: shape, x :: c, n, h, hl, hx =>
    ⟨Nat.lt_of_lt_of_le (hx x (by simp)) (h m (by simp)),
      inShape_of_forall shape c n (fun m hm => h m (List.mem_cons_of_mem _ hm)) (by simpa using hl) (fun x hx' => hx x (List.mem_cons_of_mem _ hx'))⟩

theorem generalizedPottsOf_spec [CommRing V] [LinearOrder V] {f : Fun V} {shape : List Nat} {g : List Nat → V} (hf : Denotes f shape g)
    {cs : List (List (Nat × Nat × Bool) × List Nat)} (hc : Complete shape.length cs) (hs : ∀ m ∈ shape, shape.length ≤ m) :
    ∃ r, generalizedPottsOf f cs = some r ∧ (r = true ↔ IsGeneralizedPottsTable shape g) := by
  have href : ∀ p ∈ cs, InShape shape p.2 := fun p hp => by
    obtain ⟨h1, _, h3⟩ := hc.reference p hp
    exact inShape_of_forall shape p.2 _ hs h1 h3
  unfold generalizedPottsOf
  rw [readAll_spec (g := g)]
  swap
  · intro c hc'
    obtain ⟨p, hp, rfl⟩ := List.mem_map.mp hc'
    exact hf.eval_eq _ (href p hp)
  simp only [hf.shape_eq]
  obtain ⟨r, h1, h2⟩ := nestedLoops_spec (fun l => match f.eval l with | none => none | some x => some (checkCases x l (cs.map (·.1)) ((cs.map (·.2)).map g)))
    (fun l => checkCases (g l) l (cs.map (·.1)) ((cs.map (·.2)).map g)) shape [] (by
      intro c hc'
      simp only [List.nil_append, hf.eval_eq c hc'])
  refine ⟨r, h1, h2.trans ?_⟩
  simp only [List.nil_append, checkCases_spec]
  constructor
  · intro h c c' hc1 hc2 hsp
    obtain ⟨p, hp, hpat⟩ := hc.covers c (inShape_length hc1)
    obtain ⟨p', hp', hpat'⟩ := hc.covers c' (inShape_length hc2)
    have : pattern c' p.1 = true := by
      unfold pattern at hpat ⊢
      rw [List.all_eq_true] at hpat ⊢
      intro e he
      have := hpat e he
      revert this
      cases h1 : c[e.1]? with
      | none => simp
      | some a =>
        cases h2 : c[e.2.1]? with
        | none => simp
        | some b =>
          have l1 := (List.getElem?_eq_some_iff.mp h1).1
          have l2 := (List.getElem?_eq_some_iff.mp h2).1
          have hs := hsp.2 e.1 e.2.1 l1 l2
          rw [hsp.1] at l1 l2
          rw [h1, h2, List.getElem?_eq_getElem l1, List.getElem?_eq_getElem l2] at hs
          simp only [Option.some.injEq] at hs
          rw [List.getElem?_eq_getElem l1, List.getElem?_eq_getElem l2]
          simp only [hs, imp_self]
    rw [h c hc1 p hp hpat, h c' hc2 p hp this]
  · intro h l hl p hp hpat
    obtain ⟨h1, h2, _⟩ := hc.reference p hp
    exact h l p.2 hl (href p hp) (hc.same p hp l p.2 (inShape_length hl) h1 hpat h2)

end Functions
end OpenGM
