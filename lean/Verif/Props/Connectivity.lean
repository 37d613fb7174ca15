import Verif.Lemmas.Partition
import Verif.Lemmas.FactorGraph
import Verif.Model.Connectivity
import Verif.Spec.Connected
import Verif.Props.FactorGraph
/-
C11: isConnected decides connectivity.
-/
namespace OpenGM.FG
open Spec Partition

/-- Merge calls issued for one factor. -/
def scopeOps (prev : Nat) : List Nat → List PartitionOp
  | [] => []
  | v :: vs => .merge prev v :: scopeOps v vs

theorem mergeScope_run (vs : List Nat) : ∀ (P : Partition) (prev : Nat),
    mergeScope P prev vs = P.run (scopeOps prev vs) := by
  induction vs with
  | nil => intro P prev; rfl
  | cons v vs ih =>
    intro P prev
    simp only [mergeScope, scopeOps, Partition.run, Partition.step]
    cases P.merge prev v with
    | none => rfl
    | some P' => exact ih P' v

/-- What the merges of one factor do to the relation. -/
theorem scope_refines (vs : List Nat) : ∀ (P : Partition) (s : Merged) (rep : Nat → Nat) (prev : Nat), Refines P s rep →
    prev < s.n → (∀ v ∈ vs, v < s.n) →
    ∃ P' s' rep', mergeScope P prev vs = some P' ∧ Refines P' s' rep' ∧ s'.n = s.n ∧
      ∀ x y, s'.Equiv x y ↔ Relation.EqvGen (fun a b => s.Equiv a b ∨ (a ∈ prev :: vs ∧ b ∈ prev :: vs)) x y := by
  induction vs with
  | nil =>
    intro P s rep prev h hp _
    refine ⟨P, s, rep, rfl, h, rfl, ?_⟩
    intro x y
    constructor
    · intro e; exact Relation.EqvGen.rel _ _ (Or.inl e)
    · intro e
      induction e with
      | rel x y h =>
        rcases h with h | ⟨h1, h2⟩
        · exact h
        · simp only [List.mem_singleton] at h1 h2
          subst h1; subst h2; exact Relation.EqvGen.refl _
      | refl x => exact Relation.EqvGen.refl _
      | symm x y _ ih => exact Relation.EqvGen.symm _ _ ih
      | trans x y z _ _ i1 i2 => exact Relation.EqvGen.trans _ _ _ i1 i2
  | cons v vs ih =>
    intro P s rep prev h hp hvs
    obtain ⟨P1, rep1, e1, h1⟩ := step_refines h (.merge prev v) ⟨hp, hvs v (by simp)⟩
    obtain ⟨P2, s2, rep2, e2, h2, n2, q2⟩ := ih P1 _ rep1 v h1 (hvs v (by simp)) (fun w hw => hvs w (by simp [hw]))
    refine ⟨P2, s2, rep2, ?_, h2, n2, ?_⟩
    · simp only [mergeScope]
      have e1' : P.merge prev v = some P1 := e1
      rw [e1']; exact e2
    · intro x y
      rw [q2]
      constructor
      · intro e
        induction e with
        | rel x y h =>
          rcases h with h | ⟨h1, h2⟩
          · rw [equiv_merge] at h
            have hpv : Relation.EqvGen (fun a b => s.Equiv a b ∨ (a ∈ prev :: v :: vs ∧ b ∈ prev :: v :: vs)) prev v :=
              Relation.EqvGen.rel _ _ (Or.inr ⟨by simp, by simp⟩)
            have lift : ∀ {a b}, s.Equiv a b →
                Relation.EqvGen (fun a b => s.Equiv a b ∨ (a ∈ prev :: v :: vs ∧ b ∈ prev :: v :: vs)) a b :=
              fun h => Relation.EqvGen.rel _ _ (Or.inl h)
            rcases h with h | ⟨h1, h2⟩ | ⟨h1, h2⟩
            · exact lift h
            · exact Relation.EqvGen.trans _ _ _ (lift h1)
                (Relation.EqvGen.trans _ _ _ hpv (Relation.EqvGen.symm _ _ (lift h2)))
            · exact Relation.EqvGen.trans _ _ _ (lift h1)
                (Relation.EqvGen.trans _ _ _ (Relation.EqvGen.symm _ _ hpv) (Relation.EqvGen.symm _ _ (lift h2)))
          · exact Relation.EqvGen.rel _ _ (Or.inr ⟨List.mem_cons_of_mem _ h1, List.mem_cons_of_mem _ h2⟩)
        | refl x => exact Relation.EqvGen.refl _
        | symm x y _ ih => exact Relation.EqvGen.symm _ _ ih
        | trans x y z _ _ i1 i2 => exact Relation.EqvGen.trans _ _ _ i1 i2
      · intro e
        let R : Nat → Nat → Prop := fun a b =>
          (PartitionOp.apply s (.merge prev v)).Equiv a b ∨ (a ∈ v :: vs ∧ b ∈ v :: vs)
        have hpv : Relation.EqvGen R prev v := Relation.EqvGen.rel _ _ (Or.inl (equiv_merge.mpr
          (Or.inr (Or.inl ⟨Relation.EqvGen.refl _, Relation.EqvGen.refl _⟩))))
        have toV : ∀ a, a ∈ prev :: v :: vs → Relation.EqvGen R a v := by
          intro a ha
          rcases List.mem_cons.mp ha with rfl | ha
          · exact hpv
          · exact Relation.EqvGen.rel _ _ (Or.inr ⟨ha, by simp⟩)
        induction e with
        | rel x y h =>
          rcases h with h | ⟨h1, h2⟩
          · exact Relation.EqvGen.rel _ _ (Or.inl (equiv_merge.mpr (Or.inl h)))
          · exact Relation.EqvGen.trans _ _ _ (toV _ h1) (Relation.EqvGen.symm _ _ (toV _ h2))
        | refl x => exact Relation.EqvGen.refl _
        | symm x y _ ih => exact Relation.EqvGen.symm _ _ ih
        | trans x y z _ _ i1 i2 => exact Relation.EqvGen.trans _ _ _ i1 i2

theorem scopes_refines (ss : List (List Nat)) : ∀ (P : Partition) (s : Merged) (rep : Nat → Nat) (done : List (List Nat)),
    Refines P s rep → (∀ x y, s.Equiv x y ↔ Linked done x y) → (∀ t ∈ ss, t ≠ [] ∧ ∀ v ∈ t, v < s.n) →
    ∃ P' s' rep', mergeScopes P ss = some P' ∧ Refines P' s' rep' ∧ s'.n = s.n ∧
      ∀ x y, s'.Equiv x y ↔ Linked (done ++ ss) x y := by
  induction ss with
  | nil =>
    intro P s rep done h hq _
    exact ⟨P, s, rep, rfl, h, rfl, by simpa using hq⟩
  | cons t ss ih =>
    intro P s rep done h hq hr
    cases t with
    | nil => exact absurd rfl (hr [] (by simp)).1
    | cons v vs =>
      have hv := (hr (v :: vs) (by simp)).2
      obtain ⟨P1, s1, rep1, e1, h1, n1, q1⟩ := scope_refines vs P s rep v h (hv v (by simp)) (fun w hw => hv w (by simp [hw]))
      have q1' : ∀ x y, s1.Equiv x y ↔ Linked (done ++ [v :: vs]) x y := by
        intro x y
        rw [q1]
        constructor
        · intro e
          induction e with
          | rel x y h =>
            rcases h with h | ⟨h1, h2⟩
            · rw [hq] at h
              exact Relation.EqvGen.mono (fun a b ⟨t, ht, h⟩ => ⟨t, by simp [ht], h⟩) _ _ h
            · exact Relation.EqvGen.rel _ _ ⟨v :: vs, by simp, h1, h2⟩
          | refl x => exact Relation.EqvGen.refl _
          | symm x y _ ih => exact Relation.EqvGen.symm _ _ ih
          | trans x y z _ _ i1 i2 => exact Relation.EqvGen.trans _ _ _ i1 i2
        · intro e
          refine Relation.EqvGen.mono ?_ _ _ e
          rintro a b ⟨t, ht, ha, hb⟩
          rcases List.mem_append.mp ht with ht | ht
          · left; rw [hq]; exact Relation.EqvGen.rel _ _ ⟨t, ht, ha, hb⟩
          · simp only [List.mem_singleton] at ht; subst ht
            exact Or.inr ⟨ha, hb⟩
      obtain ⟨P2, s2, rep2, e2, h2, n2, q2⟩ := ih P1 s1 rep1 (done ++ [v :: vs]) h1 q1'
        (fun t ht => by rw [n1]; exact hr t (by simp [ht]))
      refine ⟨P2, s2, rep2, ?_, h2, by rw [n2, n1], by simpa using q2⟩
      simp only [mergeScopes, e1]
      exact e2

/-- C11: for a consistent factor graph with at least one variable and no factor of order 0, `isConnected` returns true
iff every two variables are joined by a chain of factors, and `representatives` receives exactly one variable of every
connected component. -/
theorem C11_isConnected (g : FG) (h : g.Exact) (hn : 0 < g.numVars) (h0 : [] ∉ g.scopes) :
    ∃ b reps, g.isConnected = some (b, some reps) ∧
      (b = true ↔ ∀ v w, v < g.numVars → w < g.numVars → Linked g.scopes v w) ∧
      reps.Pairwise (· < ·) ∧ (∀ r ∈ reps, r < g.numVars) ∧
      (∀ v, v < g.numVars → ∃ r ∈ reps, Linked g.scopes v r ∧ ∀ r' ∈ reps, Linked g.scopes v r' → r' = r) := by
  have h00 : ∀ x y, (Merged.mk g.numVars []).Equiv x y ↔ Linked [] x y := by
    intro x y
    constructor
    · intro e; exact Relation.EqvGen.mono (by intro a b h; simp at h) _ _ e
    · intro e; exact Relation.EqvGen.mono (by rintro a b ⟨t, ht, _⟩; simp at ht) _ _ e
  obtain ⟨P, s, rep, e, hR, hsn, hq⟩ := scopes_refines g.scopes (ofSize g.numVars) ⟨g.numVars, []⟩ id []
    (ofSize_refines _) h00 (fun t ht => ⟨fun e => h0 (e ▸ ht), h.range t ht⟩)
  simp only [List.nil_append] at hq
  have hsn' : s.n = g.numVars := hsn
  have hpn : P.numberOfElements = g.numVars := by rw [hR.size, hsn']
  have hreps := representatives_eq hR.toInv
  have hlen : P.representatives.length = P.numberOfSets := by rw [hreps, hR.sets]
  have hmem : ∀ r, r ∈ P.representatives ↔ r < g.numVars ∧ rep r = r := by
    intro r
    rw [hreps, List.mem_filter, List.mem_range, hpn]; simp
  have heq : ∀ x y, x < g.numVars → y < g.numVars → (rep x = rep y ↔ Linked g.scopes x y) := by
    intro x y hx hy
    rw [hR.equiv x y (by rw [hsn']; exact hx) (by rw [hsn']; exact hy), hq]
  have hrep : ∀ v, v < g.numVars → rep v < g.numVars ∧ rep (rep v) = rep v := by
    intro v hv
    have hv' : v < P.numberOfElements := by rw [hpn]; exact hv
    exact ⟨by rw [← hpn]; exact (hR.root v hv').1, hR.toTrees.rep_rep hv'⟩
  refine ⟨decide (P.numberOfSets = 1), P.representatives, ?_, ?_, ?_, fun r hr => ((hmem r).mp hr).1, ?_⟩
  · unfold isConnected
    rw [if_neg (by omega), e]
    simp [hlen]
  · rw [decide_eq_true_eq, ← hlen, List.length_eq_one_iff]
    constructor
    · rintro ⟨r, hr⟩ v w hv hw
      rw [← heq v w hv hw]
      have h1 := (hmem (rep v)).mpr (hrep v hv)
      have h2 := (hmem (rep w)).mpr (hrep w hw)
      rw [hr, List.mem_singleton] at h1 h2
      rw [h1, h2]
    · intro hall
      have h1 := (hmem (rep 0)).mpr (hrep 0 hn)
      refine ⟨rep 0, ?_⟩
      have hnd : P.representatives.Nodup := by rw [hreps]; exact List.Nodup.filter _ List.nodup_range
      rw [← List.perm_singleton, List.perm_ext_iff_of_nodup hnd (by simp)]
      intro r
      rw [List.mem_singleton]
      constructor
      · intro hr
        obtain ⟨hr1, hr2⟩ := (hmem r).mp hr
        rw [← hr2]
        exact (heq r 0 hr1 hn).mpr (hall r 0 hr1 hn)
      · rintro rfl; exact h1
  · rw [hreps]; exact List.Pairwise.filter _ List.pairwise_lt_range
  · intro v hv
    obtain ⟨h1, h2⟩ := hrep v hv
    refine ⟨rep v, (hmem _).mpr ⟨h1, h2⟩, (heq v (rep v) hv h1).mp h2.symm, ?_⟩
    intro r' hr' hl
    obtain ⟨h3, h4⟩ := (hmem r').mp hr'
    rw [(heq v r' hv h3).mpr hl]
    exact h4.symm

/-- C11: without variables the result is false. -/
theorem C11_empty (g : FG) (hn : g.numVars = 0) : g.isConnected = some (false, none) := by
  simp [isConnected, hn]

/-- C11: a factor without variables makes the call undefined (in release builds; debug builds assert). -/
theorem C11_order0 : ∃ g : FG, g.Exact ∧ 0 < g.numVars ∧ g.isConnected = none :=
  ⟨demoGraph, demoGraph_exact, by decide, by decide⟩

def demoForest : FG := ⟨5, [[0, 1], [3], [1, 3], [2, 4]], [[0], [0, 2], [3], [1, 2], [3]]⟩

theorem demoForest_exact : demoForest.Exact where
  adjLen := rfl
  sorted := by decide
  range := by decide
  adj := by
    intro v hv
    have : v = 0 ∨ v = 1 ∨ v = 2 ∨ v = 3 ∨ v = 4 := by simp [demoForest] at hv; omega
    rcases this with rfl | rfl | rfl | rfl | rfl
    all_goals
      refine ⟨_, rfl, by decide, ?_⟩
      intro f
      rcases f with _ | _ | _ | _ | f <;> simp [demoForest]

example := C11_isConnected demoForest demoForest_exact (by decide) (by decide)
example : demoForest.isConnected = some (false, some [0, 2]) := by decide
example : (FG.mk 3 [[0, 1], [1, 2]] [[0], [0, 1], [1]]).isConnected = some (true, some [0]) := by decide

end OpenGM.FG
