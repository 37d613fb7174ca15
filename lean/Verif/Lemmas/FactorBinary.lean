import Verif.Lemmas.FactorMerge
/-
Correctness of the binary and unary operations on factors.
-/
namespace OpenGM
open Spec
namespace FactorOps
open Marray Geometry Walkers
variable {V : Type}

theorem positive_map {L : Nat → Nat} {vars : List Nat} (h : ∀ v ∈ vars, 0 < L v) : Positive (vars.map L) := by
  intro n hn
  obtain ⟨v, hv, rfl⟩ := List.mem_map.mp hn
  exact h v hv

/-- A walker over all tuples whose states are found with `steps`. -/
theorem visits_of_mod {σ : Type} (next : σ → Option σ) (shape : List Nat) (coord : σ → List Nat) (s0 : σ) (P : σ → Prop)
    (h : ∀ k, ∃ c, steps next k s0 = some c ∧ (allTuples shape)[k % shape.prod]? = some (coord c) ∧ P c) :
    ∃ l, l.length = shape.prod ∧ Visits next s0 l ∧ l.map coord = allTuples shape ∧ ∀ s ∈ l, P s := by
  obtain ⟨l, h1, h2, h3⟩ := visits_of_steps next shape.prod s0 (fun k _ => let ⟨c, hc, _⟩ := h k; ⟨c, hc⟩)
  refine ⟨l, h1, h2, ?_, ?_⟩
  · apply List.ext_getElem?
    intro k
    rcases Nat.lt_or_ge k shape.prod with hk | hk
    · obtain ⟨c, hc, ht, _⟩ := h k
      rw [Nat.mod_eq_of_lt hk] at ht
      rw [List.getElem?_map, h3 k hk, hc, ht]
      rfl
    · rw [List.getElem?_eq_none (by simpa [h1] using hk), List.getElem?_eq_none (by rw [length_allTuples]; exact hk)]
  · intro s hs
    obtain ⟨k, hk, he⟩ := List.getElem_of_mem hs
    obtain ⟨c, hc, _, hP⟩ := h k
    have := h3 k (by omega)
    rw [List.getElem?_eq_getElem hk, he, hc] at this
    cases this
    exact hP

theorem visits_shapeWalker {shape : List Nat} (hp : Positive shape) :
    Visits (shapeWalkerNext shape) (shapeWalkerInit shape) (allTuples shape) := by
  have := visits_allTuples (shapeWalkerNext shape) shape hp id (fun t t' hs h => shapeWalkerNext_spec hs h)
    (fun t ht => shapeWalkerLoop_total shape _ t (inShape_length ht) (by simp))
  simpa [shapeWalkerInit] using this

/-- Fill an array by a loop in which the value at a tuple is given by labelings. -/
theorem fill_spec {σ : Type} {L : Nat → Nat} {vars : List Nat} {o : Order} (hnd : vars.Nodup) (next : σ → Option σ) (coord : σ → List Nat)
    (F : (Nat → Nat) → V) (hF : ∀ x y, Labels L vars x → (∀ v ∈ vars, x v = y v) → F x = F y)
    (body : σ → Arr V → Option (Arr V)) {l : List σ} {s0 : σ} {c0 : Arr V} {n : Nat} (hn : l.length = n) (h0 : c0.Ok (vars.map L) o)
    (hv : Visits next s0 l) (hl : l.map coord = allTuples (vars.map L))
    (hb : ∀ s ∈ l, ∀ c : Arr V, c.Ok (vars.map L) o → c.get (coord s) = c0.get (coord s) → InShape (vars.map L) (coord s) →
      body s c = c.set (coord s) (F (labelingOf vars (coord s)))) :
    ∃ c, walkLoop next body n s0 c0 = some c ∧ c.Ok (vars.map L) o ∧ HasValue L vars c.geometry.shape c.get F := by
  have hin : ∀ s ∈ l, InShape (vars.map L) (coord s) := by
    intro s hs
    have := List.mem_map_of_mem (f := coord) hs
    rw [hl] at this
    exact (mem_allTuples _ _).mp this
  obtain ⟨c, h1, h2, h3⟩ := walkLoop_spec next coord (fun s => F (labelingOf vars (coord s))) body hn h0 hv hl
    (fun s hs c hc hg => hb s hs c hc hg (hin s hs))
  refine ⟨c, h1, h2, hasValue_of_ok h2 ?_⟩
  intro x hx
  have hm : vars.map x ∈ allTuples (vars.map L) := (mem_allTuples _ _).mpr ((inShape_map L x vars).mpr hx)
  rw [← hl] at hm
  obtain ⟨s, hs, he⟩ := List.mem_map.mp hm
  rw [← he, h3 s hs, he]
  refine congrArg some (hF _ _ ?_ ?_)
  · rw [← he]; exact (labelingOf_spec hnd (hin s hs)).2
  · refine map_eq_of ?_
    rw [map_labelingOf hnd (by simp)]

theorem hasValue_scalar {L : Nat → Nat} {shape : List Nat} {read : List Nat → Option V} {f : (Nat → Nat) → V}
    (h : HasValue L [] shape read f) (x : Nat → Nat) : read [0] = some (f x) := by
  have := h.value x (by simp [Labels]) [0]
  simpa using this

theorem hasValue_read {L : Nat → Nat} {vars shape : List Nat} {read : List Nat → Option V} {f : (Nat → Nat) → V}
    (h : HasValue L vars shape read f) {x : Nat → Nat} (hx : Labels L vars x) : read (vars.map x) = some (f x) := by
  have := h.value x hx []
  simpa using this

theorem binaryOp_spec (zero : V) (op : V → V → V) {L : Nat → Nat} {a b : Fn V} {via vib : List Nat} {f g : (Nat → Nat) → V}
    (ha : HasValue L via a.shape a.eval f) (hb : HasValue L vib b.shape b.eval g) (hsa : StrictlySorted via) (hsb : StrictlySorted vib)
    (hpa : ∀ v ∈ via, 0 < L v) (hpb : ∀ v ∈ vib, 0 < L v) (hne : via ≠ [] ∨ vib ≠ []) :
    ∃ c vic, binaryOp zero op a b via vib = some (c, vic) ∧ StrictlySorted vic ∧ (∀ v, v ∈ vic ↔ v ∈ via ∨ v ∈ vib) ∧
      c.Ok (vic.map L) defaultOrder ∧ HasValue L vic c.geometry.shape c.get (fun x => op (f x) (g x)) := by
  obtain ⟨vic, hc, hsc, hmem⟩ := computeViandShape_spec L ha.shape hb.shape hsa hsb
  have hndc := nodup_of_sorted hsc
  have hpc : Positive (vic.map L) := positive_map (fun v hv => by
    rcases (hmem v).mp hv with h | h
    · exact hpa v h
    · exact hpb v h)
  have hvic : vic ≠ [] := by
    rintro rfl
    rcases hne with h | h
    · obtain ⟨v, l, rfl⟩ := List.exists_cons_of_ne_nil h
      exact absurd ((hmem v).mpr (Or.inl (by simp))) (by simp)
    · obtain ⟨v, l, rfl⟩ := List.exists_cons_of_ne_nil h
      exact absurd ((hmem v).mpr (Or.inr (by simp))) (by simp)
  obtain ⟨c0, hr, hok, _⟩ := Arr.resize_empty zero (newShape := vic.map L) (by simpa using hvic) zero
  have hsize : c0.geometry.size = (vic.map L).prod := by rw [hok.1, Arr.dense_size]
  have hLa : ∀ x, Labels L vic x → Labels L via x := fun x hx v hv => hx v ((hmem v).mpr (Or.inl hv))
  have hLb : ∀ x, Labels L vic x → Labels L vib x := fun x hx v hv => hx v ((hmem v).mpr (Or.inr hv))
  have hF : ∀ x y, Labels L vic x → (∀ v ∈ vic, x v = y v) → op (f x) (g x) = op (f y) (g y) := by
    intro x y hx he
    rw [hasValue_congr ha (hLa x hx) (fun v hv => he v ((hmem v).mpr (Or.inl hv))),
      hasValue_congr hb (hLb x hx) (fun v hv => he v ((hmem v).mpr (Or.inr hv)))]
  have hla : a.shape.length = via.length := by rw [ha.shape]; simp
  have hlb : b.shape.length = vib.length := by rw [hb.shape]; simp
  unfold binaryOp
  rw [hc]
  simp only
  rw [hr]
  simp only
  by_cases h0a : via = []
  · subst h0a
    have hvb : vib ≠ [] := by rcases hne with h | h; exact absurd rfl h; exact h
    have hlb0 : b.shape.length ≠ 0 := by rw [hlb]; simpa using hvb
    simp only [List.length_nil] at hla
    rw [if_neg (by simp [hla]), if_neg (by simp [hla, hlb0]), if_pos hla]
    have hvv : vic = vib := by
      simp only [computeViandShape] at hc
      split at hc
      · simp at hc
      · simp only [List.zip_nil_left, Option.some.injEq, Prod.mk.injEq] at hc
        rw [← hc.1, hb.shape, zip_map_self, List.map_map]
        exact List.map_id _
    subst hvv
    obtain ⟨c, e1, e2, e3⟩ := fill_spec hndc (shapeWalkerNext (vic.map L)) id (fun x => op (f x) (g x)) hF
      (fun s c => assign2 op c s (a.eval [0]) (b.eval s)) (l := allTuples (vic.map L)) (n := c0.geometry.size)
      (by rw [length_allTuples, hsize]) hok (visits_shapeWalker hpc) (by simp) (by
        intro s _ c _ _ hin
        have hl := labelingOf_spec hndc hin
        rw [id] at hl
        have h2 := hasValue_read hb hl.2
        rw [hl.1] at h2
        simp only [id]
        rw [hasValue_scalar ha (labelingOf vic s), h2]
        rfl)
    rw [e1]
    exact ⟨c, vic, rfl, hsc, hmem, e2, e3⟩
  · have hla0 : a.shape.length ≠ 0 := by rw [hla]; simpa using h0a
    by_cases h0b : vib = []
    · subst h0b
      simp only [List.length_nil] at hlb
      rw [if_neg (by simp [hlb]), if_neg (by simp [hla0]), if_neg hla0]
      have hvv : vic = via := by
        simp only [computeViandShape] at hc
        split at hc
        · simp at hc
        · simp only [List.zip_nil_left, Option.some.injEq, Prod.mk.injEq] at hc
          rw [← hc.1, ha.shape, zip_map_self]
          obtain ⟨v, l, rfl⟩ := List.exists_cons_of_ne_nil h0a
          simp only [List.map_cons, List.map_map]
          exact congrArg _ (List.map_id l)
      subst hvv
      obtain ⟨c, e1, e2, e3⟩ := fill_spec hndc (shapeWalkerNext (vic.map L)) id (fun x => op (f x) (g x)) hF
        (fun s c => assign2 op c s (a.eval s) (b.eval [0])) (l := allTuples (vic.map L)) (n := c0.geometry.size)
        (by rw [length_allTuples, hsize]) hok (visits_shapeWalker hpc) (by simp) (by
          intro s _ c _ _ hin
          have hl := labelingOf_spec hndc hin
          rw [id] at hl
          have h2 := hasValue_read ha hl.2
          rw [hl.1] at h2
          simp only [id]
          rw [hasValue_scalar hb (labelingOf vic s), h2]
          rfl)
      rw [e1]
      exact ⟨c, vic, rfl, hsc, hmem, e2, e3⟩
    · have hlb0 : b.shape.length ≠ 0 := by rw [hlb]; simpa using h0b
      rw [if_pos ⟨hla0, hlb0⟩]
      have hmA : ∀ v ∈ via, v ∈ vic := fun v hv => (hmem v).mpr (Or.inl hv)
      have hmB : ∀ v ∈ vib, v ∈ vic := fun v hv => (hmem v).mpr (Or.inr hv)
      obtain ⟨l, l1, l2, l3, l4⟩ := visits_of_mod _ (vic.map L) Coords.ab (tripleInit vic via vib) _
        (tripleNext_spec (by simp) hndc (sublist_of_sorted hsa hsc hmA) (sublist_of_sorted hsb hsc hmB) hpc)
      obtain ⟨c, e1, e2, e3⟩ := fill_spec hndc (tripleNext (vic.map L) vic via vib) Coords.ab (fun x => op (f x) (g x)) hF
        (fun s c => assign2 op c s.ab (a.eval s.a) (b.eval s.b)) (l := l) (n := c0.geometry.size) (by rw [l1, hsize]) hok l2 l3 (by
          intro s hs c _ _ hin
          have hl := labelingOf_spec hndc hin
          have hR := l4 s hs
          rw [restricts_map hndc hmA hin hR.1, restricts_map hndc hmB hin hR.2, hasValue_read ha (hLa _ hl.2), hasValue_read hb (hLb _ hl.2)]
          rfl)
      rw [e1]
      exact ⟨c, vic, rfl, hsc, hmem, e2, e3⟩

theorem ofArr_hasValue {L : Nat → Nat} {vars : List Nat} {a : Arr V} {f : (Nat → Nat) → V}
    (h : HasValue L vars a.geometry.shape a.get f) : HasValue L vars (ofArr a).shape (ofArr a).eval f := h

theorem binaryInplace_spec (zero : V) (op : V → V → V) {L : Nat → Nat} {a : Arr V} {b : Fn V} {via vib : List Nat} {f g : (Nat → Nat) → V}
    {o : Order} (hok : a.Ok (via.map L) o) (ha : HasValue L via a.geometry.shape a.get f) (hb : HasValue L vib b.shape b.eval g)
    (hsa : StrictlySorted via) (hsb : StrictlySorted vib)
    (hpa : ∀ v ∈ via, 0 < L v) (hpb : ∀ v ∈ vib, 0 < L v) (hne : via ≠ [] ∨ vib ≠ []) :
    ∃ c vic, binaryInplace zero op a b via vib = some (c, vic) ∧ StrictlySorted vic ∧ (∀ v, v ∈ vic ↔ v ∈ via ∨ v ∈ vib) ∧
      (∃ o', (o' = o ∨ o' = defaultOrder) ∧ c.Ok (vic.map L) o') ∧ HasValue L vic c.geometry.shape c.get (fun x => op (f x) (g x)) := by
  obtain ⟨vic, hc, hsc, hmem⟩ := computeViandShape_spec L (ofArr_hasValue ha).shape hb.shape hsa hsb
  unfold binaryInplace
  rw [hc]
  simp only
  by_cases hlen : vic.length = via.length
  · rw [if_pos hlen]
    have hsub := sublist_of_sorted hsa hsc (fun v hv => (hmem v).mpr (Or.inl hv))
    have hvv : via = vic := hsub.eq_of_length hlen.symm
    subst hvv
    have hnd := nodup_of_sorted hsa
    have hvne : via.length ≠ 0 := by
      intro h0
      have h0' := List.length_eq_zero_iff.mp h0
      subst h0'
      rcases hne with h | h
      · exact h rfl
      · obtain ⟨v, l, rfl⟩ := List.exists_cons_of_ne_nil h
        exact absurd ((hmem v).mpr (Or.inr (by simp))) (by simp)
    rw [if_pos hvne]
    have hsubB : ∀ v ∈ vib, v ∈ via := fun v hv => (hmem v).mpr (Or.inr hv)
    have hpc : Positive (via.map L) := positive_map hpa
    have hsize : a.geometry.size = (via.map L).prod := by rw [hok.1, Arr.dense_size]
    have hLb : ∀ x, Labels L via x → Labels L vib x := fun x hx v hv => hx v (hsubB v hv)
    have hF : ∀ x y, Labels L via x → (∀ v ∈ via, x v = y v) → op (f x) (g x) = op (f y) (g y) := by
      intro x y hx he
      rw [hasValue_congr ha hx he, hasValue_congr hb (hLb x hx) (fun v hv => he v (hsubB v hv))]
    obtain ⟨l, l1, l2, l3, l4⟩ := visits_of_mod _ (via.map L) Prod.fst (doubleInit via vib) _
      (doubleNext_spec (by simp) hnd (sublist_of_sorted hsb hsa hsubB) hpc)
    have hread : ∀ (s : List Nat × List Nat) (c : Arr V), c.get s.1 = a.get s.1 → InShape (via.map L) s.1 →
        c.get s.1 = some (f (labelingOf via s.1)) := by
      intro s c hg hin
      have hl := labelingOf_spec hnd hin
      have := hasValue_read ha hl.2
      rw [hl.1] at this
      rw [hg, this]
    by_cases h0b : vib = []
    · subst h0b
      rw [if_neg (by simp)]
      obtain ⟨c, e1, e2, e3⟩ := fill_spec hnd (doubleNext (via.map L) via []) Prod.fst (fun x => op (f x) (g x)) hF
        (fun s a => assign2 op a s.1 (a.get s.1) (b.eval [0])) (l := l) (n := a.geometry.size) (by rw [l1, hsize]) hok l2 l3 (by
          intro s hs c _ hg hin
          rw [hread s c hg hin, hasValue_scalar hb (labelingOf via s.1)]
          rfl)
      rw [e1]
      exact ⟨c, via, rfl, hsc, hmem, ⟨o, Or.inl rfl, e2⟩, e3⟩
    · rw [if_pos (by simpa using h0b)]
      obtain ⟨c, e1, e2, e3⟩ := fill_spec hnd (doubleNext (via.map L) via vib) Prod.fst (fun x => op (f x) (g x)) hF
        (fun s a => assign2 op a s.1 (a.get s.1) (b.eval s.2)) (l := l) (n := a.geometry.size) (by rw [l1, hsize]) hok l2 l3 (by
          intro s hs c _ hg hin
          have hl := labelingOf_spec hnd hin
          rw [hread s c hg hin, restricts_map hnd hsubB hin (l4 s hs), hasValue_read hb (hLb _ hl.2)]
          rfl)
      rw [e1]
      exact ⟨c, via, rfl, hsc, hmem, ⟨o, Or.inl rfl, e2⟩, e3⟩
  · rw [if_neg hlen]
    obtain ⟨c, vic', h1, h2, h3, h4, h5⟩ := binaryOp_spec zero op (ofArr_hasValue ha) hb hsa hsb hpa hpb hne
    exact ⟨c, vic', h1, h2, h3, ⟨_, Or.inr rfl, h4⟩, h5⟩

theorem unaryOp_spec (zero : V) (g : V → V) {L : Nat → Nat} {a : Fn V} {via : List Nat} {f : (Nat → Nat) → V}
    (ha : HasValue L via a.shape a.eval f) (hnd : via.Nodup) (hpa : ∀ v ∈ via, 0 < L v) (hne : via ≠ []) :
    ∃ c, unaryOp zero g a = some c ∧ c.Ok (via.map L) defaultOrder ∧ HasValue L via c.geometry.shape c.get (fun x => g (f x)) := by
  obtain ⟨c0, hr, hok, _⟩ := Arr.resize_empty zero (newShape := via.map L) (by simpa using hne) zero
  have hla : a.shape.length ≠ 0 := by rw [ha.shape]; simpa using hne
  unfold unaryOp
  rw [if_pos hla, ha.shape, hr, Option.bind_some]
  exact fill_spec hnd (shapeWalkerNext (via.map L)) id (fun x => g (f x))
    (fun x y hx he => by rw [hasValue_congr ha hx he]) (fun s b => assign1 g b s (a.eval s)) (l := allTuples (via.map L))
    (by rw [length_allTuples, foldl_mul_prod]) hok (visits_shapeWalker (positive_map hpa)) (by simp) (by
      intro s _ c _ _ hin
      have hl := labelingOf_spec hnd hin
      rw [id] at hl
      have h2 := hasValue_read ha hl.2
      rw [hl.1] at h2
      simp only [id]
      rw [h2]
      rfl)

theorem ok_nil {a : Arr V} {o : Order} (h : a.Ok [] o) : ∃ x, a = Arr.scalar x o := by
  obtain ⟨hg, mem, hm, hl⟩ := h
  match mem, hl with
  | [x], _ =>
    refine ⟨x, ?_⟩
    cases a
    simp only at hg hm
    subst hg hm
    rfl

theorem scalar_get (x : V) (o : Order) (c : List Nat) : (Arr.scalar x o).get c = some x := by
  simp [Arr.get, Arr.scalar, Arr.view, View.at_, Geometry.scalar, coordinatesToOffset, dotLoop]

theorem scalar_set (x y : V) (o : Order) (c : List Nat) : (Arr.scalar x o).set c y = some (Arr.scalar y o) := by
  simp [Arr.set, Arr.scalar, Geometry.scalar, coordinatesToOffset, dotLoop, setAt]

theorem scalar_ok (x : V) (o : Order) : (Arr.scalar x o).Ok [] o := ⟨rfl, [x], rfl, rfl⟩

theorem scalar_hasValue (L : Nat → Nat) (y : V) (o : Order) (f : (Nat → Nat) → V) (h : ∀ x, f x = y) :
    HasValue L [] (Arr.scalar y o).geometry.shape (Arr.scalar y o).get f :=
  ⟨rfl, fun x _ rest => by rw [scalar_get, h x]⟩

theorem unaryInplace_spec (g : V → V) {L : Nat → Nat} {a : Arr V} {via : List Nat} {f : (Nat → Nat) → V} {o : Order}
    (hok : a.Ok (via.map L) o) (ha : HasValue L via a.geometry.shape a.get f) (hnd : via.Nodup) (hpa : ∀ v ∈ via, 0 < L v) :
    ∃ c, unaryInplace g a = some c ∧ c.Ok (via.map L) o ∧ HasValue L via c.geometry.shape c.get (fun x => g (f x)) := by
  unfold unaryInplace
  by_cases hne : via = []
  · subst hne
    obtain ⟨y, rfl⟩ := ok_nil hok
    have hf : ∀ x, f x = y := by
      intro x
      have := hasValue_scalar ha x
      rw [scalar_get] at this
      exact (Option.some.inj this).symm
    rw [if_neg (by simp [Arr.scalar, Geometry.scalar]), scalar_get]
    simp only [assign1, scalar_set]
    exact ⟨_, rfl, scalar_ok _ _, scalar_hasValue L _ _ _ (fun x => by rw [hf x])⟩
  · have hla : a.geometry.shape.length ≠ 0 := by rw [ha.shape]; simpa using hne
    have hsize : a.geometry.size = (via.map L).prod := by rw [hok.1, Arr.dense_size]
    rw [if_pos hla, ha.shape]
    exact fill_spec hnd (shapeWalkerNext (via.map L)) id (fun x => g (f x))
      (fun x y hx he => by rw [hasValue_congr ha hx he]) (fun s b => assign1 g b s (b.get s)) (l := allTuples (via.map L))
      (by rw [length_allTuples, hsize]) hok (visits_shapeWalker (positive_map hpa)) (by simp) (by
        intro s _ c _ hg hin
        have hl := labelingOf_spec hnd hin
        rw [id] at hl hg
        have h2 := hasValue_read ha hl.2
        rw [hl.1] at h2
        simp only [id]
        rw [hg, h2]
        rfl)

end FactorOps
end OpenGM
