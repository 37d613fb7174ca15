import Mathlib.Data.List.Basic
import Verif.Lemmas.Partition
/-
C31: Partition answers queries about the equivalence relation generated by the merges.
`run (ofSize n) ops` is any history of merge / insert / find calls on a partition of n elements; the specification is
`Relation.EqvGen` of the merged pairs (Verif/Spec/Equivalence.lean).
-/
namespace OpenGM.Partition
open Spec

/-- The specification state after a history. -/
abbrev mergedAfter (n : Nat) (ops : List PartitionOp) : Merged := ops.foldl PartitionOp.apply ⟨n, []⟩

/-- A history with merges of merged sets, equal ranks, different ranks, insertion and path compression. -/
def demoOps : List PartitionOp :=
  [.merge 0 1, .merge 2 3, .merge 1 3, .insert 2, .merge 5 0, .find 3, .merge 3 0, .merge 4 4]

theorem demoOps_valid : ValidPartitionHistory ⟨4, []⟩ demoOps := by
  simp [demoOps, ValidPartitionHistory, PartitionOp.Valid, PartitionOp.apply]

/-- C31: after any valid history all calls have terminated without undefined behaviour; `find` (with and without path
compression) terminates, and gives the same representative for two elements iff they are in the same class. The
representative is an element of the class. -/
theorem C31_find (n : Nat) (ops : List PartitionOp) (hv : ValidPartitionHistory ⟨n, []⟩ ops) :
    ∃ P, (ofSize n).run ops = some P ∧ P.numberOfElements = (mergedAfter n ops).n ∧
      ∃ rep : Nat → Nat,
        (∀ a, a < P.numberOfElements → P.findConst a = some (rep a) ∧ (∃ P', P.find a = some (rep a, P')) ∧
          rep a < P.numberOfElements ∧ (mergedAfter n ops).Equiv a (rep a)) ∧
        (∀ a b, a < P.numberOfElements → b < P.numberOfElements →
          (rep a = rep b ↔ (mergedAfter n ops).Equiv a b)) := by
  obtain ⟨P, rep, e, h⟩ := run_refines ops (ofSize_refines n) hv
  refine ⟨P, e, h.size, rep, ?_, ?_⟩
  · intro a ha
    obtain ⟨P', e', _⟩ := find_spec h.toInv ha
    have hr := (h.root a ha).1
    refine ⟨findConst_spec h.toInv ha, ⟨P', e'⟩, hr, ?_⟩
    rw [← h.equiv a (rep a) (by rw [← h.size]; exact ha) (by rw [← h.size]; exact hr)]
    exact (h.toTrees.rep_rep ha).symm
  · intro a b ha hb
    rw [h.size] at ha hb
    exact h.equiv a b ha hb

/-- C31: a `find` with path compression changes no later answer. -/
theorem C31_find_pure (n : Nat) (ops : List PartitionOp) (hv : ValidPartitionHistory ⟨n, []⟩ ops) (a : Nat)
    (ha : a < (mergedAfter n ops).n) :
    ∃ P r P', (ofSize n).run ops = some P ∧ P.find a = some (r, P') ∧ P'.numberOfSets = P.numberOfSets ∧
      P'.numberOfElements = P.numberOfElements ∧
      ∀ b, b < P.numberOfElements → P'.findConst b = P.findConst b := by
  obtain ⟨P, rep, e, h⟩ := run_refines ops (ofSize_refines n) hv
  obtain ⟨P', e', h', n', _⟩ := find_spec h.toInv (x := a) (by rw [h.size]; exact ha)
  refine ⟨P, rep a, P', e, e', ?_, n', ?_⟩
  · rw [h'.sets, h.sets, n']
  · intro b hb
    rw [findConst_spec h.toInv hb, findConst_spec h' (by rw [n']; exact hb)]

/-- C31: `numberOfSets` is the number of classes, and `representatives` lists exactly one element of every class, in
increasing order. -/
theorem C31_numberOfSets (n : Nat) (ops : List PartitionOp) (hv : ValidPartitionHistory ⟨n, []⟩ ops) :
    ∃ P, (ofSize n).run ops = some P ∧ P.representatives.length = P.numberOfSets ∧
      P.representatives.Pairwise (· < ·) ∧
      (∀ r ∈ P.representatives, r < (mergedAfter n ops).n) ∧
      ∀ a, a < (mergedAfter n ops).n → ∃ r ∈ P.representatives, (mergedAfter n ops).Equiv a r ∧
        ∀ r' ∈ P.representatives, (mergedAfter n ops).Equiv a r' → r' = r := by
  obtain ⟨P, rep, e, h⟩ := run_refines ops (ofSize_refines n) hv
  have hreps := representatives_eq h.toInv
  have hmem : ∀ r, r ∈ P.representatives ↔ r < (mergedAfter n ops).n ∧ rep r = r := by
    intro r
    rw [hreps, List.mem_filter, List.mem_range, h.size]; simp
  refine ⟨P, e, by rw [hreps, h.sets], ?_, fun r hr => ((hmem r).mp hr).1, ?_⟩
  · rw [hreps]; exact List.Pairwise.filter _ List.pairwise_lt_range
  · intro a ha
    have ha' : a < P.numberOfElements := by rw [h.size]; exact ha
    have hlt : rep a < (mergedAfter n ops).n := by
      have := (h.root a ha').1
      rw [h.size] at this; exact this
    have hrr := h.toTrees.rep_rep ha'
    refine ⟨rep a, (hmem _).mpr ⟨hlt, hrr⟩, ?_, ?_⟩
    · rw [← h.equiv a (rep a) ha hlt]; exact hrr.symm
    · intro r' hr' heq
      obtain ⟨h1, h2⟩ := (hmem r').mp hr'
      rw [← h.equiv a r' ha h1] at heq
      rw [heq]; exact h2.symm

theorem lookup_of_nodup : ∀ (l : List (Nat × Nat)), (l.map Prod.fst).Nodup → ∀ k v, (k, v) ∈ l → l.lookup k = some v := by
  intro l
  induction l with
  | nil => simp
  | cons x l ih =>
    intro hn k v hm
    obtain ⟨a, b⟩ := x
    simp only [List.map_cons, List.nodup_cons] at hn
    rcases List.mem_cons.mp hm with h | h
    · simp only [Prod.mk.injEq] at h
      obtain ⟨rfl, rfl⟩ := h
      simp [List.lookup]
    · have hne : k ≠ a := by
        rintro rfl
        exact hn.1 (List.mem_map.mpr ⟨(k, v), h, rfl⟩)
      have : (k == a) = false := by simpa using hne
      simp only [List.lookup, this]
      exact ih hn.2 k v h

/-- C31: `elementLabeling` numbers the classes 0, ..., numberOfSets-1, without gaps, and equal labels mean same class. -/
theorem C31_elementLabeling (n : Nat) (ops : List PartitionOp) (hv : ValidPartitionHistory ⟨n, []⟩ ops) :
    ∃ P L, (ofSize n).run ops = some P ∧ P.elementLabeling = some L ∧ L.length = (mergedAfter n ops).n ∧
      (∀ (a b la lb : Nat), L[a]? = some la → L[b]? = some lb → (la = lb ↔ (mergedAfter n ops).Equiv a b)) ∧
      (∀ l, l ∈ L ↔ l < P.numberOfSets) := by
  obtain ⟨P, rep, e, h⟩ := run_refines ops (ofSize_refines n) hv
  have hreps := representatives_eq h.toInv
  have hlen : P.representatives.length = P.numberOfSets := by rw [hreps, h.sets]
  have hnd : P.representatives.Nodup := by rw [hreps]; exact List.Nodup.filter _ List.nodup_range
  have hmem : ∀ r, r ∈ P.representatives ↔ r < P.numberOfElements ∧ rep r = r := by
    intro r
    rw [hreps, List.mem_filter, List.mem_range]; simp
  have hrl : P.representativeLabeling = some (P.representatives.zipIdx.reverse) := by
    unfold representativeLabeling
    simp [hlen]
  have hidx : ∀ j, j < P.numberOfElements → ∃ i : Nat, P.representatives[i]? = some (rep j) := by
    intro j hj
    have : rep j ∈ P.representatives := (hmem _).mpr ⟨(h.root j hj).1, h.toTrees.rep_rep hj⟩
    exact List.getElem?_of_mem this
  let lab : Nat → Nat := fun j => P.representatives.idxOf (rep j)
  have hlab : ∀ j, j < P.numberOfElements → P.representatives[lab j]? = some (rep j) ∧
      P.representatives.zipIdx.reverse.lookup (rep j) = some (lab j) := by
    intro j hj
    have hm : rep j ∈ P.representatives := (hmem _).mpr ⟨(h.root j hj).1, h.toTrees.rep_rep hj⟩
    have h1 : P.representatives[lab j]? = some (rep j) := List.getElem?_idxOf hm
    refine ⟨h1, lookup_of_nodup _ ?_ _ _ ?_⟩
    · rw [List.map_reverse, List.nodup_reverse]
      simpa using hnd
    · rw [List.mem_reverse, List.mem_zipIdx_iff_getElem?]
      exact h1
  have hL : P.elementLabeling = some ((List.range P.numberOfElements).map lab) := by
    unfold elementLabeling
    rw [hrl]
    simp only
    have : ∀ l : List Nat, (∀ j ∈ l, j < P.numberOfElements) → l.mapM (fun j =>
      match P.findConst j with
      | none => none
      | some r => match P.representatives.zipIdx.reverse.lookup r with
        | some l => some l
        | none => some 0) = some (l.map lab) := by
      intro l
      induction l with
      | nil => simp
      | cons j l ih =>
        intro hl
        rw [List.mapM_cons, findConst_spec h.toInv (hl j (by simp))]
        simp only [(hlab j (hl j (by simp))).2]
        rw [ih (fun x hx => hl x (List.mem_cons_of_mem _ hx))]
        rfl
    exact this _ (fun j hj => List.mem_range.mp hj)
  have hget : ∀ (a la : Nat), ((List.range P.numberOfElements).map lab)[a]? = some la →
      a < P.numberOfElements ∧ la = lab a := by
    intro a la hh
    rw [List.getElem?_map] at hh
    by_cases ha : a < P.numberOfElements
    · rw [List.getElem?_range ha] at hh
      simp at hh
      exact ⟨ha, hh.symm⟩
    · rw [List.getElem?_eq_none (by simpa using ha)] at hh
      simp at hh
  refine ⟨P, _, e, hL, by simp [h.size], ?_, ?_⟩
  · intro a b la lb hla hlb
    obtain ⟨ha, rfl⟩ := hget a la hla
    obtain ⟨hb, rfl⟩ := hget b lb hlb
    have h1 := (hlab a ha).1
    have h2 := (hlab b hb).1
    rw [h.size] at ha hb
    rw [← h.equiv a b ha hb]
    constructor
    · intro he
      rw [he, h2] at h1
      exact (Option.some.inj h1).symm
    · intro he
      show List.idxOf (rep a) _ = List.idxOf (rep b) _
      rw [he]
  · intro l
    rw [List.mem_map]
    constructor
    · rintro ⟨j, hj, rfl⟩
      have := (hlab j (List.mem_range.mp hj)).1
      rw [← hlen]
      exact (List.getElem?_eq_some_iff.mp this).1
    · intro hl
      rw [← hlen] at hl
      have hm := (hmem _).mp (List.getElem_mem hl)
      refine ⟨P.representatives[l], List.mem_range.mpr hm.1, ?_⟩
      show List.idxOf (rep _) _ = l
      rw [hm.2]
      exact List.Nodup.idxOf_getElem hnd l hl

example : ∃ P, (ofSize 4).run demoOps = some P ∧ P.numberOfSets = 2 ∧ P.elementLabeling = some [0, 0, 0, 0, 1, 0] :=
  ⟨_, rfl, rfl, by decide⟩

example := C31_find 4 demoOps demoOps_valid
example := C31_find_pure 4 demoOps demoOps_valid 3 (by decide)
example := C31_numberOfSets 4 demoOps demoOps_valid
example := C31_elementLabeling 4 demoOps demoOps_valid

end OpenGM.Partition
