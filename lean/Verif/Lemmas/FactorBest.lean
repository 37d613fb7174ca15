import Verif.Lemmas.FactorFix
import Verif.Spec.Moves
/-
Minimum and argument of the minimum.
-/
namespace OpenGM
open Spec
namespace FactorOps
open Marray Geometry Walkers
variable {V : Type}

/-- Invariant of the minimisation loop with state. -/
theorem minFold_spec {α : Type} {lt : V → V → Bool} (ho : StrictOrder lt) (htot : ∀ a b, lt a b = false → lt b a = false → a = b) (val : α → V) :
    ∀ (l : List α) (m : V) (st : α) (h : m = val st),
    ∃ t, (t = st ∨ t ∈ l) ∧ l.foldl (fun (acc : V × α) s => (minOp lt (val s) acc.1, if lt (val s) acc.1 then s else acc.2)) (m, st) = (val t, t) ∧
      lt m (val t) = false ∧ ∀ s ∈ l, lt (val s) (val t) = false
  | [], m, st, h => ⟨st, Or.inl rfl, by simp [h], by rw [h]; exact ho.irrefl _, by simp⟩
  | a :: l, m, st, h => by
    simp only [List.foldl_cons]
    have nt : ∀ x y z, lt x y = false → lt y z = false → lt x z = false := by
      intro x y z h1 h2
      cases hxz : lt x z with
      | false => rfl
      | true =>
        cases hyx : lt y x with
        | true => rw [ho.trans _ _ _ hyx hxz] at h2; cases h2
        | false =>
          have := htot x y h1 hyx
          subst this
          rw [h2] at hxz; cases hxz
    cases hlt : lt (val a) m with
    | true =>
      have hma : lt m (val a) = false := by
        cases h2 : lt m (val a) with
        | false => rfl
        | true => have := ho.trans _ _ _ hlt h2; rw [ho.irrefl] at this; cases this
      obtain ⟨t, h1, h2, h3, h4⟩ := minFold_spec ho htot val l (val a) a rfl
      simp only [minOp, hma, Bool.false_eq_true, if_false, if_true]
      refine ⟨t, Or.inr ?_, h2, nt _ _ _ hma h3, ?_⟩
      · rcases h1 with rfl | h1
        · simp
        · exact List.mem_cons_of_mem _ h1
      · intro s hs
        rcases List.mem_cons.mp hs with rfl | hs
        · exact h3
        · exact h4 s hs
    | false =>
      have hmin : minOp lt (val a) m = m := by
        unfold minOp
        cases h2 : lt m (val a) with
        | true => rfl
        | false => simp only [Bool.false_eq_true, if_false]; exact htot _ _ hlt h2
      obtain ⟨t, h1, h2, h3, h4⟩ := minFold_spec ho htot val l m st h
      rw [hmin]
      simp only [Bool.false_eq_true, if_false]
      refine ⟨t, ?_, h2, h3, ?_⟩
      · rcases h1 with h1 | h1
        · exact Or.inl h1
        · exact Or.inr (List.mem_cons_of_mem _ h1)
      · intro s hs
        rcases List.mem_cons.mp hs with rfl | hs
        · exact nt _ _ _ hlt h3
        · exact h4 s hs

theorem minFold_fst {α : Type} (lt : V → V → Bool) (val : α → V) : ∀ (l : List α) (m : V) (st : α),
    (l.foldl (fun (acc : V × α) s => (minOp lt (val s) acc.1, if lt (val s) acc.1 then s else acc.2)) (m, st)).1 =
      l.foldl (fun acc s => minOp lt (val s) acc) m
  | [], _, _ => rfl
  | a :: l, m, st => by simp only [List.foldl_cons]; exact minFold_fst lt val l _ _

/-- The minimum over the accumulated variables is attained and not undercut. -/
theorem marginal_min {lt : V → V → Bool} (ho : StrictOrder lt) (htot : ∀ a b, lt a b = false → lt b a = false → a = b) {neutral : V}
    (hneutral : ∀ v, lt neutral v = false) {L : Nat → Nat} {acc : List Nat} (hp : ∀ v ∈ acc, 0 < L v) (f : (Nat → Nat) → V) (x : Nat → Nat) :
    (∃ t, InShape (acc.map L) t ∧ marginal (minOp lt) neutral L acc f x = f (override x acc t)) ∧
    ∀ t, InShape (acc.map L) t → lt (f (override x acc t)) (marginal (minOp lt) neutral L acc f x) = false := by
  obtain ⟨rest, hr⟩ := zeros_head (acc.map L) (positive_map hp)
  unfold marginal
  have hm : ∀ t, InShape (acc.map L) t ↔ t ∈ allTuples (acc.map L) := fun t => (mem_allTuples _ _).symm
  simp only [hm]
  rw [hr]
  simp only [List.foldl_cons]
  have hfirst : ∀ v, minOp lt v neutral = v := fun v => by simp [minOp, hneutral v]
  rw [hfirst]
  obtain ⟨t, h1, h2, h3, h4⟩ := minFold_spec ho htot (fun t => f (override x acc t)) rest _ (List.replicate (acc.map L).length 0) rfl
  have h5 := minFold_fst lt (fun t => f (override x acc t)) rest (f (override x acc (List.replicate (acc.map L).length 0)))
    (List.replicate (acc.map L).length 0)
  rw [h2] at h5
  simp only at h5
  rw [← h5]
  refine ⟨⟨t, ?_, rfl⟩, ?_⟩
  · rcases h1 with rfl | h1
    · simp
    · exact List.mem_cons_of_mem _ h1
  · intro s hs
    rcases List.mem_cons.mp hs with rfl | hs
    · exact h3
    · exact h4 s hs

/-- Minimum with state. -/
theorem accumulateAllState_min {lt : V → V → Bool} (ho : StrictOrder lt) (htot : ∀ a b, lt a b = false → lt b a = false → a = b) {neutral : V}
    {L : Nat → Nat} {a : Fn V} {vs : List Nat} {f : (Nat → Nat) → V} (ha : HasValue L vs a.shape a.eval f) (hnd : vs.Nodup)
    (hp : ∀ v ∈ vs, 0 < L v) (hbeats : ∀ x, Labels L vs x → lt (f x) neutral = true) :
    ∃ t m, accumulateAllState lt (minOp lt) neutral a = some (m, t) ∧ InShape (vs.map L) t ∧
      (∀ x, vs.map x = t → f x = m) ∧ ∀ x, Labels L vs x → lt (f x) m = false := by
  unfold accumulateAllState
  by_cases h0 : vs = []
  · subst h0
    rw [if_neg (by rw [ha.shape]; simp), hasValue_scalar ha (fun _ => 0)]
    have hb := hbeats (fun _ => 0) (by simp [Labels])
    have hnb : lt neutral (f (fun _ => 0)) = false := by
      cases h : lt neutral (f (fun _ => 0)) with
      | false => rfl
      | true => have := ho.trans _ _ _ hb h; rw [ho.irrefl] at this; cases this
    have hc : ∀ x, f x = f (fun _ => 0) := fun x => hasValue_congr ha (by simp [Labels]) (by simp)
    refine ⟨[], f (fun _ => 0), by simp [minOp, hnb], trivial, fun x _ => hc x, ?_⟩
    intro x _
    rw [hc x]
    exact ho.irrefl _
  · rw [if_pos (by rw [ha.shape]; simpa using h0), ha.shape, foldl_mul_prod, ← length_allTuples]
    have hread : ∀ t ∈ allTuples (vs.map L), a.eval t = some (f (labelingOf vs t)) := by
      intro t ht
      have hin := (mem_allTuples _ _).mp ht
      have h1 := labelingOf_spec hnd hin
      have h2 := hasValue_read ha h1.2
      rwa [h1.1] at h2
    rw [accStateLoop_visits lt (minOp lt) _ _ (fun t => f (labelingOf vs t)) _ _ _ (visits_shapeWalker (positive_map hp)) hread]
    obtain ⟨rest, hr⟩ := zeros_head (vs.map L) (positive_map hp)
    have hmem0 : List.replicate (vs.map L).length 0 ∈ allTuples (vs.map L) := by rw [hr]; simp
    have hb0 := hbeats _ (labelingOf_spec hnd ((mem_allTuples _ _).mp hmem0)).2
    have hnb : lt neutral (f (labelingOf vs (List.replicate (vs.map L).length 0))) = false := by
      cases h : lt neutral (f (labelingOf vs (List.replicate (vs.map L).length 0))) with
      | false => rfl
      | true => have := ho.trans _ _ _ hb0 h; rw [ho.irrefl] at this; cases this
    rw [hr]
    simp only [List.foldl_cons]
    have hfirst : minOp lt (f (labelingOf vs (List.replicate (vs.map L).length 0))) neutral =
        f (labelingOf vs (List.replicate (vs.map L).length 0)) := by unfold minOp; rw [if_neg (by rw [hnb]; simp)]
    rw [hfirst, if_pos hb0]
    obtain ⟨t, h1, h2, h3, h4⟩ := minFold_spec ho htot (fun t => f (labelingOf vs t)) rest _ (List.replicate (vs.map L).length 0) rfl
    have htm : t ∈ allTuples (vs.map L) := by
      rw [hr]
      rcases h1 with rfl | h1
      · simp
      · exact List.mem_cons_of_mem _ h1
    have htin := (mem_allTuples _ _).mp htm
    refine ⟨t, f (labelingOf vs t), by rw [h2], htin, ?_, ?_⟩
    · intro x hx
      symm
      apply hasValue_congr ha (labelingOf_spec hnd htin).2
      intro v hv
      rw [← hx, labelingOf_map hnd x hv]
    · intro x hx
      have hxm : vs.map x ∈ allTuples (vs.map L) := (mem_allTuples _ _).mpr ((inShape_map L x vs).mpr hx)
      have hfx : f x = f (labelingOf vs (vs.map x)) := by
        apply hasValue_congr ha hx
        intro v hv
        rw [labelingOf_map hnd x hv]
      rw [hfx]
      rw [hr] at hxm
      rcases List.mem_cons.mp hxm with h | h
      · rw [h]; exact h3
      · exact h4 _ h

end FactorOps
end OpenGM
