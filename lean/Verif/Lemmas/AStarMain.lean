import Verif.Lemmas.AStarInfer
import Verif.Lemmas.AStarConstruct
import Verif.Lemmas.ICM
import Verif.Lemmas.Walkers
import Mathlib.Data.List.Sort
/-
Lemmas for A*: calls of infer, one after another.
-/
namespace OpenGM
namespace AStar
open Spec
variable {V : Type} {e : Env V} {s : Solver V} {p : Problem V} {val : List Nat → V}

theorem infer_spec (hc : Ctx e s p val) (visit : Nat → Bool) {gone : List (List Nat)} (hI : Inv e s p val s.array gone)
    (hmax : 100 * weight s leaves s.array ≤ 99 * s.para.maxHeapSize) (hbo : 0 < p.numLabels.length → BoundOk e p val s.belowBound gone) :
    ∃ (r : Run V) (found : List (List Nat)) (normal : Bool), infer e s visit = some (normal, { s with array := r.array, belowBound := r.belowBound, optConf := found }) ∧
      Result e s p val visit gone found r normal ∧ found.length ≤ s.para.numberOfOpt ∧ weight s leaves r.array ≤ weight s leaves s.array ∧
      (0 < p.numLabels.length → BoundOk e p val r.belowBound (gone ++ found)) := by
  obtain ⟨r, found, normal, h1, h2, h3, h4, h5⟩ := inferLoop_spec hc visit (fuel s s.array) gone (fuel s s.array) ⟨s.array, s.belowBound, false, 0⟩ []
    (by simpa using hI) rfl (by rw [fuel_eq]) (by rw [fuel_eq]) hmax (Nat.zero_le _) (by simpa using hbo)
  refine ⟨r, found, normal, ?_, h2, h3, h4, h5⟩
  unfold infer
  rw [h1]

theorem zeros_labeling (hpos : ∀ n ∈ p.numLabels, 0 < n) : p.Labeling (List.replicate p.numLabels.length 0) := by
  refine ⟨by simp, ?_⟩
  intro v l n hl hn
  rw [List.getElem?_replicate] at hl
  split at hl
  · cases hl
    exact hpos n (List.mem_of_getElem? hn)
  · cases hl

theorem root_inv (hpos : ∀ n ∈ p.numLabels, 0 < n) : Inv e s p val [⟨[], e.zero⟩] [] := by
  refine ⟨?_, ?_, ?_, ?_, ?_, ?_, ?_⟩
  · intro i a b hi _ hb
    obtain ⟨i, rfl⟩ : ∃ k, i = k + 1 := ⟨i - 1, by omega⟩
    simp at hb
  · intro a ha
    simp only [List.mem_singleton] at ha
    subst ha
    exact ⟨_, zeros_labeling hpos, List.nil_prefix⟩
  · intro z _
    exact Or.inr ⟨_, List.mem_singleton.mpr rfl, List.nil_prefix⟩
  · simp
  · simp
  · intro a ha hne
    simp only [List.mem_singleton] at ha
    subst ha
    exact absurd rfl hne
  · exact ⟨by simp, by simp, by simp, by simp⟩

theorem root_weight (hl : s.gm.numLabels = p.numLabels) (hperm : s.para.nodeOrder.Perm (List.range p.numLabels.length)) :
    weight s leaves [⟨[], e.zero⟩] = p.numLabelings := by
  simp only [weight, List.map_cons, List.map_nil, List.sum_cons, List.sum_nil, Nat.add_zero, List.length_nil, openLabels, List.drop_zero, leaves]
  rw [(hperm.map _).prod_eq, hl]
  have : (List.range p.numLabels.length).map (fun v => (p.numLabels[v]?).elim 0 id) = p.numLabels := by
    apply List.ext_getElem?
    intro i
    rw [List.getElem?_map]
    by_cases hi : i < p.numLabels.length
    · rw [List.getElem?_range hi, Option.map_some, List.getElem?_eq_getElem hi]
      rfl
    · rw [List.getElem?_eq_none (by simpa using hi), List.getElem?_eq_none (by simpa using hi)]
      rfl
  rw [this, Problem.numLabelings, List.prod_eq_foldl]

theorem best_ranking {o : Operation V} {bop : V → V → Bool} {xs : List (List Nat)} (hv : ∀ x y, bop (p.energy o x) (p.energy o y) = true → bop (val x) (val y) = true)
    (h : Best bop p val xs) : p.Ranking o bop xs := by
  have key : ∀ x y, bop (val x) (val y) = false → bop (p.energy o x) (p.energy o y) = false := by
    intro x y hxy
    cases hc : bop (p.energy o x) (p.energy o y) with
    | false => rfl
    | true => rw [hv x y hc] at hxy; cases hxy
  exact ⟨h.labeling, h.nodup, h.sorted.imp (fun h => key _ _ h), fun x hx z hz hzx => key _ _ (h.best x hx z hz hzx)⟩

theorem total_filter {o : Operation V} (ho : o.IsCommMonoid) {α : Type} (f : α → V) (P : α → Bool) : ∀ l : List α,
    total o (l.map f) = o.op (total o ((l.filter (fun a => !P a)).map f)) (total o ((l.filter P).map f))
  | [] => by rw [List.filter_nil, List.filter_nil, List.map_nil, show total o ([] : List V) = o.neutral from rfl, ho.neutral_left]
  | a :: l => by
    rw [List.map_cons, total_cons ho, total_filter ho f P l, List.filter_cons, List.filter_cons]
    cases P a
    · simp only [Bool.not_false, if_true, Bool.false_eq_true, if_false, List.map_cons]
      rw [total_cons ho, ho.assoc]
    · simp only [Bool.not_true, Bool.false_eq_true, if_false, if_true, List.map_cons]
      rw [total_cons ho, ← ho.assoc, ho.comm (f a), ho.assoc]

/-- Constants do not matter for comparisons. -/
theorem energy_withoutConstants {o : Operation V} (ho : o.IsCommMonoid) (p : Problem V) : ∃ c, ∀ z, p.energy o z = o.op c (p.withoutConstants.energy o z) := by
  refine ⟨total o ((p.terms.filter (fun t => !decide (t.vars ≠ []))).map (fun t => t.value [])), fun z => ?_⟩
  have h1 : p.energy o z = total o (p.terms.map (fun t => t.value z)) := rfl
  have h2 : p.withoutConstants.energy o z = total o ((p.terms.filter (fun t => decide (t.vars ≠ []))).map (fun t => t.value z)) := rfl
  rw [h1, h2, total_filter ho (fun t : Term V => t.value z) (fun t => decide (t.vars ≠ []))]
  congr 2
  apply List.map_congr_left
  intro t ht
  have : t.vars = [] := by simpa using (List.mem_filter.mp ht).2
  simp [Term.value, this, restrict]

theorem numLabelings_eq : p.numLabelings = (allTuples p.numLabels).length := by
  rw [length_allTuples, Problem.numLabelings, List.prod_eq_foldl]

theorem nodup_labelings_le {xs : List (List Nat)} (hnd : xs.Nodup) (hl : ∀ x ∈ xs, p.Labeling x) : xs.length ≤ p.numLabelings := by
  rw [numLabelings_eq]
  exact (List.subperm_of_subset hnd (fun x hx => (mem_allTuples _ _).mpr ((Icm.labeling_iff_InShape _ _).mpr (hl x hx)))).length_le

theorem all_labelings_ge {xs : List (List Nat)} (hl : ∀ z, p.Labeling z → z ∈ xs) : p.numLabelings ≤ xs.length := by
  rw [numLabelings_eq]
  exact (List.subperm_of_subset (nodup_allTuples _) (fun x hx => hl x ((Icm.labeling_iff_InShape _ _).mp ((mem_allTuples _ _).mp hx)))).length_le

/-- A solver that differs in the state of the search. -/
structure SameTask (s s' : Solver V) : Prop where
  gm : s'.gm = s.gm
  para : s'.para = s.para
  isTree : s'.isTree = s.isTree
  optimized : s'.optimized = s.optimized

theorem weight_same {s s' : Solver V} (h : SameTask s s') (g : List Nat → Nat) (array : List (Node V)) : weight s' g array = weight s g array := by
  unfold weight openLabels
  rw [h.gm, h.para]

theorem Core.same {s s' : Solver V} (h : SameTask s s') {array : List (Node V)} {found : List (List Nat)} (hc : Core e s p val array found) : Core e s' p val array found := by
  have hp := h.para
  exact ⟨by rw [hp]; exact hc.valid, by rw [hp]; exact hc.cover, hc.apart, by rw [hp]; exact hc.fresh, by rw [hp]; exact hc.bound, hc.best⟩

theorem inferTimes_spec (hctx : ∀ s', SameTask s s' → Ctx e s' p val) (hI : Inv e s p val s.array []) (hmax : 100 * weight s leaves s.array ≤ 99 * s.para.maxHeapSize)
    (hne : 0 < p.numLabels.length) (hbo : BoundOk e p val s.belowBound []) (hob : ∀ v, e.bop s.para.objectiveBound v = false) : ∀ k, ∃ chunks s',
      inferTimes e k s = some (chunks, s') ∧ SameTask s s' ∧ Inv e s' p val s'.array chunks.flatten ∧ 100 * weight s' leaves s'.array ≤ 99 * s'.para.maxHeapSize ∧
      BoundOk e p val s'.belowBound chunks.flatten ∧ chunks.length = k ∧ (∀ c ∈ chunks, c.length ≤ s.para.numberOfOpt) ∧
      chunks.flatten.length = min (k * s.para.numberOfOpt) p.numLabelings
  | 0 => ⟨[], s, rfl, ⟨rfl, rfl, rfl, rfl⟩, hI, hmax, hbo, rfl, by simp, by simp⟩
  | k + 1 => by
    obtain ⟨chunks, s1, a1, a2, a3, a4, a5, a6, a7, a8⟩ := inferTimes_spec hctx hI hmax hne hbo hob k
    obtain ⟨r, found, normal, b1, b2, b3, b4, b5⟩ := infer_spec (hctx s1 a2) (fun _ => false) a3 a4 (fun _ => a5)
    have hsame : SameTask s1 { s1 with array := r.array, belowBound := r.belowBound, optConf := found } := ⟨rfl, rfl, rfl, rfl⟩
    have hflat : (chunks ++ [found]).flatten = chunks.flatten ++ found := by simp
    have hle : (chunks.flatten ++ found).length ≤ p.numLabelings := nodup_labelings_le b2.best.nodup b2.best.labeling
    rw [a2.para] at b3
    have hmul : (k + 1) * s.para.numberOfOpt = k * s.para.numberOfOpt + s.para.numberOfOpt := Nat.succ_mul _ _
    have hInv : Inv e s1 p val r.array (chunks.flatten ++ found) ∧ (chunks.flatten ++ found).length = min ((k + 1) * s.para.numberOfOpt) p.numLabelings := by
      rw [List.length_append] at hle ⊢
      rcases b2.ends with ⟨_, h1, h2⟩ | ⟨_, xs, x, h1, _, h3⟩ | ⟨_, h1, h2⟩ | ⟨_, j, hj⟩
      · rw [a2.para] at h1
        exact ⟨h2, by omega⟩
      · have := h3 hne
        rw [a2.para, hob] at this
        cases this
      · refine ⟨h2, ?_⟩
        have hall : ∀ z, p.Labeling z → z ∈ chunks.flatten ++ found := by
          intro z hz
          rcases h2.core.cover z hz with h | ⟨b, hb, _⟩
          · exact h
          · rw [h1] at hb
            cases hb
        have := all_labelings_ge hall
        rw [List.length_append] at this
        omega
      · cases hj
    refine ⟨chunks ++ [found], { s1 with array := r.array, belowBound := r.belowBound, optConf := found }, ?_, ⟨a2.gm, a2.para, a2.isTree, a2.optimized⟩, ?_, ?_, ?_, by simp [a6], ?_, ?_⟩
    · rw [inferTimes, a1]
      simp only
      rw [b1]
      rfl
    · rw [hflat]
      exact ⟨hInv.1.heap, hInv.1.core.same hsame⟩
    · rw [weight_same hsame]
      exact Nat.le_trans (Nat.mul_le_mul_left _ b4) a4
    · rw [hflat]
      exact b5 hne
    · intro c hc
      rcases List.mem_append.mp hc with h | h
      · exact a7 c h
      · rw [List.mem_singleton] at h
        rw [h]
        exact b3
    · rw [hflat]
      exact hInv.2

/-- The standard library's heap algorithms, by sorting. -/
def sortedHeap {α : Type} (comp : α → α → Bool) : HeapAlgorithms α where
  push l := l.insertionSort (fun a b => comp a b = false)
  pop l := match l with
    | [] => []
    | x :: l => l.insertionSort (fun a b => comp a b = false) ++ [x]
  partialSort _ l := l.insertionSort (fun a b => comp b a = true ∨ comp a b = false)

theorem sortedHeap_correct {bop : V → V → Bool} (ho : Order bop) (comp : Node V → Node V → Bool) (hcomp : ∀ a b, comp a b = bop b.value a.value) :
    (sortedHeap comp).Correct comp := by
  have htot : ∀ a b, comp a b = false ∨ comp b a = false := by
    intro a b
    rw [hcomp, hcomp]
    cases h1 : bop b.value a.value with
    | false => exact Or.inl rfl
    | true =>
      right
      cases h2 : bop a.value b.value with
      | false => rfl
      | true =>
        have := ho.strict.trans _ _ _ h1 h2
        rw [ho.strict.irrefl] at this
        cases this
  have htr : ∀ a b c, comp a b = false → comp b c = false → comp a c = false := by
    intro a b c h1 h2
    rw [hcomp] at h1 h2 ⊢
    exact ho.neg h1 h2
  have hsorted : ∀ l : List (Node V), IsHeap comp (l.insertionSort (fun a b => comp a b = false)) := by
    intro l i a b hi ha hb
    haveI : Std.Total (fun a b : Node V => comp a b = false) := ⟨htot⟩
    haveI : IsTrans (Node V) (fun a b => comp a b = false) := ⟨htr⟩
    have hs := List.pairwise_insertionSort (fun a b : Node V => comp a b = false) l
    obtain ⟨h1, rfl⟩ := List.getElem?_eq_some_iff.mp ha
    obtain ⟨h2, rfl⟩ := List.getElem?_eq_some_iff.mp hb
    exact List.pairwise_iff_getElem.mp hs _ _ h1 h2 (by omega)
  exact ⟨fun l x _ => ⟨hsorted _, List.perm_insertionSort _ _⟩, fun l x _ => ⟨_, rfl, hsorted _, List.perm_insertionSort _ _⟩⟩

end AStar
end OpenGM
