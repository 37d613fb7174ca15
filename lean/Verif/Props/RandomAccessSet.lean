import Verif.Lemmas.RandomAccessSet
import Verif.Spec.SetHistory
/-! C30: RandomAccessSet behaves as a mathematical set, after any history of operations. -/
namespace OpenGM.RandomAccessSet
open Spec

variable {K : Type} [LinearOrder K]

/-- One modifying call on the container (`insert`, `erase`, `clear`, range `insert`). -/
def step (v : List K) : SetOp K → List K
  | .insert x => (insert less v x).1
  | .erase x => (erase less v x).1
  | .clear => clear v
  | .insertRange xs => insertRange less v xs

/-- The container after a history of calls on a default constructed set. -/
def run (ops : List (SetOp K)) : List K := ops.foldl step []

theorem step_refines (v : List K) (s : K → Prop) (op : SetOp K) (hs : v.Pairwise (· < ·))
    (hm : ∀ k, k ∈ v ↔ s k) :
    (step v op).Pairwise (· < ·) ∧ ∀ k, k ∈ step v op ↔ op.apply s k := by
  cases op with
  | insert x => exact ⟨sorted_insert v x hs, fun k => by simp [step, mem_insert _ _ _ hs, SetOp.apply, hm]⟩
  | erase x =>
    simp only [step, erase_eq_filter v x hs]
    exact ⟨hs.filter _, fun k => by simp [SetOp.apply, hm, and_comm]⟩
  | clear => simp [step, clear, SetOp.apply]
  | insertRange xs =>
    have := insertRange_spec xs v hs
    exact ⟨this.1, fun k => by simp [step, this.2 k, SetOp.apply, hm]⟩

/-- C30 (a): after any history the elements are strictly increasing and are exactly those of the abstract set. -/
theorem C30_history (ops : List (SetOp K)) :
    (run ops).Pairwise (· < ·) ∧ ∀ k, k ∈ run ops ↔ setAfter ops k := by
  suffices h : ∀ (v : List K) (s : K → Prop), v.Pairwise (· < ·) → (∀ k, k ∈ v ↔ s k) →
      (ops.foldl step v).Pairwise (· < ·) ∧ ∀ k, k ∈ ops.foldl step v ↔ ops.foldl SetOp.apply s k from
    h [] _ (by simp) (by simp)
  induction ops with
  | nil => intro v s hs hm; exact ⟨hs, hm⟩
  | cons o os ih =>
    intro v s hs hm
    have := step_refines v s o hs hm
    exact ih _ _ this.1 this.2

/-- C30 (b): in every reachable state, `find` returns the position of the key if it is in the set and `end()`
otherwise; `count` is 1 exactly for members; `insert` reports whether the key was new and the position where it
now is; `erase` reports how many elements it removed. -/
theorem C30_queries (ops : List (SetOp K)) (x : K) :
    (setAfter ops x → (run ops)[find less (run ops) x]? = some x) ∧
    (¬ setAfter ops x → find less (run ops) x = (run ops).length) ∧
    (count less (run ops) x = 1 ↔ setAfter ops x) ∧
    ((insert less (run ops) x).2.2 = true ↔ ¬ setAfter ops x) ∧
    (insert less (run ops) x).1[(insert less (run ops) x).2.1]? = some x ∧
    ((erase less (run ops) x).2 = 1 ↔ setAfter ops x) ∧ (erase less (run ops) x).2 ≤ 1 := by
  obtain ⟨hs, hm⟩ := C30_history ops
  have hf := find_spec (run ops) x hs
  have hl := find_lt_iff (run ops) x hs
  rw [← hm x]
  refine ⟨hf.1, hf.2, ?_, ?_, insert_getElem _ _ hs, ?_, ?_⟩
  · unfold count; split <;> simp_all
  · rw [insert_new _ _ hs]; simp
  · unfold erase; simp only; split <;> simp_all
  · unfold erase; simp only; split <;> simp

/-- The number of stored elements is the number of distinct keys: the vector has no duplicates. -/
theorem C30_size (ops : List (SetOp K)) : (run ops).Nodup :=
  (C30_history ops).1.imp (fun h => ne_of_lt h)

/-- Non-vacuity: a concrete history with duplicates and an erase. -/
example : run [.insert 5, .insert 2, .insert (5 : Nat), .insertRange [9, 1], .erase 2] = [1, 5, 9] := by decide

end OpenGM.RandomAccessSet
