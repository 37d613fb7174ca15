import Verif.Lemmas.Queues
/-
C32: ChangeablePriorityQueue refines a finite map with minimum. C58: FiFoQueue.

The state of a queue as a client sees it is `content q`: for every item what contains() and priority() say.
-/
namespace OpenGM
open Spec
namespace PQ
variable {P : Type}

/-- All queues of capacity `maxSize` a client can reach: constructed, then any calls that respect the preconditions. -/
inductive Reachable (lt : P → P → Bool) (p0 : P) (maxSize : Nat) : PQ P → Prop where
  | new : Reachable lt p0 maxSize (PQ.new p0 maxSize)
  | step {q q' : PQ P} (op : PQOp P) : Reachable lt p0 maxSize q → op.Valid maxSize q.content → q.step lt op = some q' → Reachable lt p0 maxSize q'

theorem Reachable.inv {lt : P → P → Bool} (hlt : StrictWeak lt) {p0 : P} {n : Nat} {q : PQ P} (h : Reachable lt p0 n q) : Inv lt q ∧ q.maxSize = n := by
  induction h with
  | new => exact ⟨inv_new lt p0 n, rfl⟩
  | step op _ hv hs ih =>
    rename_i q q' _
    obtain ⟨q1, e1, e2, e3, _⟩ := step_spec hlt ih.1 op (by rw [ih.2]; exact hv)
    rw [hs] at e1
    simp only [Option.some.injEq] at e1
    subst e1
    exact ⟨e2, e3.trans ih.2⟩

/-- C32 (construction): a new queue is empty. -/
theorem C32_new (p0 : P) (n i : Nat) (hi : i ≤ n) : (new p0 n).contains i = some false ∧ (new p0 n).isEmpty = true ∧ (new p0 n).size = 0 := by
  refine ⟨?_, rfl, rfl⟩
  simp only [contains, new, List.getElem?_replicate]
  rw [if_pos (by omega)]
  rfl

/-- C32 (calls): every call whose precondition holds is defined (no access out of range) and changes the content as specified: push and
changePriority set the priority of one item, pop removes the item top() returned, which was minimal, deleteItem removes the item, reset removes
all, setPriorities sets all; all other items keep their priorities. -/
theorem C32_calls (lt : P → P → Bool) (hlt : StrictWeak lt) (p0 : P) (n : Nat) (q : PQ P) (h : Reachable lt p0 n q) (op : PQOp P)
    (hv : op.Valid n q.content) :
    ∃ q', q.step lt op = some q' ∧ Reachable lt p0 n q' ∧ op.After lt q.content (q.top.bind id) q'.content := by
  obtain ⟨hi, hm⟩ := h.inv hlt
  obtain ⟨q', e1, _, _, e4⟩ := step_spec hlt hi op (by rw [hm]; exact hv)
  exact ⟨q', e1, h.step op hv e1, e4⟩

/-- C32 (exact priorities): if only equal priorities are equivalent, push and changePriority set exactly the given priority. -/
theorem C32_exact (lt : P → P → Bool) (hlt : StrictWeak lt) (htot : ∀ a b, Equivalent lt a b → a = b) (p0 : P) (n : Nat) (q : PQ P)
    (h : Reachable lt p0 n q) (i : Nat) (p : P) (hv : (PQOp.push i p).Valid n q.content) :
    ∃ q', q.push lt i p = some q' ∧ q'.contains i = some true ∧ q'.priority i = some p ∧ q'.content = q.content.update i (some p) := by
  obtain ⟨q', e1, e2, e3⟩ := C32_calls lt hlt p0 n q h (.push i p) hv
  have hc : q'.content = q.content.update i (some p) := by
    rcases e3 with h' | ⟨r, h1, h2, h3⟩
    · exact h'
    · rw [h3]
      have := htot _ _ h2
      subst this
      funext j
      unfold PMap.update
      by_cases hj : j = i
      · rw [if_pos hj, hj, h1]
      · rw [if_neg hj]
  have hci : q'.content i = some p := by rw [hc]; simp [PMap.update]
  obtain ⟨k, hk⟩ := ((e2.inv hlt).1.bij.content_some (i := i)).mp ⟨p, hci⟩
  refine ⟨q', e1, by simp [contains, hk], ?_, hc⟩
  rw [content_in hk] at hci
  exact hci

/-- C32 (observers): size() is the number of items, empty() says whether there are none; if there are any, top() is an item of minimal priority and
topPriority() is its priority. -/
theorem C32_observers (lt : P → P → Bool) (hlt : StrictWeak lt) (p0 : P) (n : Nat) (q : PQ P) (h : Reachable lt p0 n q) :
    q.size = q.content.size n ∧ (q.isEmpty = true ↔ ∀ i, q.content i = none) ∧
    (∀ i, i ≤ n → q.contains i = some (q.content i).isSome) ∧
    ((∃ i p, q.content i = some p) → ∃ i p, q.top = some (some i) ∧ q.topPriority = some p ∧ q.content.IsTop lt i p) := by
  obtain ⟨hi, hm⟩ := h.inv hlt
  have hex : (∃ i p, q.content i = some p) → 1 ≤ q.cur := by
    rintro ⟨i, p, hip⟩
    obtain ⟨k, hk⟩ := (hi.bij.content_some (i := i)).mp ⟨p, hip⟩
    have := hi.bij.inv i k hk
    omega
  refine ⟨by rw [← hm, hi.bij.size_eq]; rfl, ?_, ?_, ?_⟩
  · simp only [isEmpty, decide_eq_true_eq]
    constructor
    · intro h0 i
      cases hc : q.content i with
      | none => rfl
      | some p => have := hex ⟨i, p, hc⟩; omega
    · intro hno
      by_contra h0
      obtain ⟨i, p, _, _, ⟨h1, _⟩, _⟩ := hi.top hlt (by omega)
      rw [hno i] at h1
      simp at h1
  · intro i hin
    have hl : i < q.indices.length := by rw [hi.bij.indLen, hm]; omega
    by_cases hs : ∃ k, q.indices[i]? = some (some k)
    · obtain ⟨p, hp⟩ := hi.bij.content_some.mpr hs
      obtain ⟨k, hk⟩ := hs
      simp [contains, hk, hp]
    · rw [content_out hs]
      unfold contains
      match he : q.indices[i]? with
      | none => rw [List.getElem?_eq_none_iff] at he; omega
      | some none => rfl
      | some (some k) => exact absurd ⟨k, he⟩ hs
  · intro hne
    obtain ⟨i, p, h1, h2, h3, _⟩ := hi.top hlt (hex hne)
    exact ⟨i, p, h1, h2, h3⟩

theorem strictWeak_nat : StrictWeak (fun a b : Nat => decide (a < b)) :=
  ⟨by simp, by simp only [decide_eq_true_eq]; omega, by simp only [decide_eq_true_eq]; omega⟩

/-- A run: seven items pushed, one changed, one deleted, one popped; then the least priority is on top. -/
def runAll (lt : P → P → Bool) : PQ P → List (PQOp P) → Option (PQ P)
  | q, [] => some q
  | q, op :: ops => (q.step lt op).bind (fun q' => runAll lt q' ops)

example : ∃ q, runAll (fun a b : Nat => decide (a < b)) (new 0 8)
      [.push 3 50, .push 1 40, .push 7 60, .push 0 30, .push 8 20, .push 2 70, .push 5 10, .changePriority 5 65, .deleteItem 0, .pop] = some q ∧
    q.top = some (some 1) ∧ q.topPriority = some 40 ∧ q.size = 5 ∧ q.contains 8 = some false ∧ q.priority 5 = some 65 :=
  ⟨_, rfl, by decide, by decide, by decide, by decide, by decide⟩

/-- A reachable queue with two items, on which all calls are valid. -/
example : ∃ q : PQ Nat, Reachable (fun a b : Nat => decide (a < b)) 0 2 q ∧ q.size = 2 ∧ (PQOp.pop).Valid 2 q.content ∧ (PQOp.push 0 7).Valid 2 q.content ∧
    (PQOp.deleteItem 2).Valid 2 q.content := by
  have h1 : Reachable (fun a b : Nat => decide (a < b)) 0 2 _ := Reachable.step (.push 2 5) .new (q' := (((new 0 2).push (fun a b : Nat => decide (a < b)) 2 5).get (by decide)))
    ⟨by decide, by decide⟩ rfl
  have h2 := Reachable.step (.push 0 4) h1 (q' := (((((new 0 2).push (fun a b : Nat => decide (a < b)) 2 5).get (by decide)).push (fun a b : Nat => decide (a < b)) 0 4).get (by decide)))
    ⟨by decide, by decide⟩ rfl
  exact ⟨_, h2, by decide, ⟨0, 4, by decide⟩, ⟨by decide, by decide⟩, ⟨5, by decide⟩⟩

/-- C32 without totality: pushing an item again with an equivalent but different priority keeps the old one. -/
theorem C32_equivalent_violated : ∃ q q' : PQ (Nat × Nat), (new (0, 0) 2).push (fun a b => decide (a.1 < b.1)) 1 (5, 1) = some q ∧
    q.push (fun a b => decide (a.1 < b.1)) 1 (5, 2) = some q' ∧ q'.priority 1 = some (5, 1) :=
  ⟨_, _, rfl, rfl, by decide⟩

end PQ

/-! ### FiFoQueue -/
namespace Fifo
variable {T : Type}

/-- Calls. -/
inductive Call (T : Type) where
  | push (t : T)
  | pop
  | clear

/-- A queue as a list, and how many pushes there were since construction or the last clear(). -/
def Call.apply (s : List T × Nat) : Call T → List T × Nat
  | .push t => (s.1 ++ [t], s.2 + 1)
  | .pop => (s.1.tail, s.2)
  | .clear => ([], 0)

/-- Preconditions: pop() only if not empty; at most `maxSize` pushes since the last clear(). -/
def Call.Valid (maxSize : Nat) (s : List T × Nat) : Call T → Prop
  | .push _ => s.2 < maxSize
  | .pop => s.1 ≠ []
  | .clear => True

def ValidCalls (maxSize : Nat) : List T × Nat → List (Call T) → Prop
  | _, [] => True
  | s, c :: cs => c.Valid maxSize s ∧ ValidCalls maxSize (c.apply s) cs

def step (q : Fifo T) : Call T → Option (Fifo T)
  | .push t => q.push t
  | .pop => some q.pop
  | .clear => some q.clear

def run : Fifo T → List (Call T) → Option (Fifo T)
  | q, [] => some q
  | q, c :: cs => (step q c).bind (fun q' => run q' cs)

/-- The queue holds the list. -/
structure Holds (q : Fifo T) (n : Nat) (s : List T × Nat) : Prop where
  len : q.data.length = n
  end_ : q.end_ = s.2
  begin_ : q.begin_ + s.1.length = q.end_
  bound : s.2 ≤ n
  data : ∀ i, i < s.1.length → q.data[q.begin_ + i]? = s.1[i]?

theorem holds_step {q : Fifo T} {n : Nat} {s : List T × Nat} (h : Holds q n s) (c : Call T) (hv : c.Valid n s) : ∃ q', step q c = some q' ∧ Holds q' n (c.apply s) := by
  cases c with
  | push t =>
    have hlt : q.end_ < q.data.length := by rw [h.len, h.end_]; exact hv
    refine ⟨⟨q.begin_, q.end_ + 1, q.maxSize, q.data.set q.end_ t⟩, by simp [step, push, setAt_of_lt _ hlt],
      ⟨by simpa using h.len, by simp [Call.apply, h.end_], by have := h.begin_; simp [Call.apply]; omega, hv, ?_⟩⟩
    intro i hi
    simp only [Call.apply, List.length_append, List.length_cons, List.length_nil] at hi ⊢
    by_cases hil : i = s.1.length
    · subst hil
      rw [h.begin_, List.getElem?_set_self hlt]
      simp
    · rw [List.getElem?_set_ne (by have := h.begin_; omega), List.getElem?_append_left (by omega)]
      exact h.data i (by omega)
  | pop =>
    obtain ⟨l, m⟩ := s
    cases l with
    | nil => simp [Call.Valid] at hv
    | cons a l =>
      refine ⟨_, rfl, ⟨h.len, h.end_, by have := h.begin_; simp [Call.apply, pop] at *; omega, h.bound, ?_⟩⟩
      intro i hi
      have := h.data (i + 1) (by simpa [Call.apply] using hi)
      simp only [pop, Call.apply, List.tail_cons]
      rw [show q.begin_ + 1 + i = q.begin_ + (i + 1) by omega, this]
      rfl
  | clear => exact ⟨_, rfl, ⟨h.len, rfl, rfl, Nat.zero_le _, by intro i hi; simp [Call.apply] at hi⟩⟩

theorem holds_run {n : Nat} : ∀ (cs : List (Call T)) (q : Fifo T) (s : List T × Nat), Holds q n s → ValidCalls n s cs →
    ∃ q', run q cs = some q' ∧ Holds q' n (cs.foldl Call.apply s)
  | [], q, s, h, _ => ⟨q, rfl, h⟩
  | c :: cs, q, s, h, hv => by
    obtain ⟨q1, e1, h1⟩ := holds_step h c hv.1
    obtain ⟨q2, e2, h2⟩ := holds_run cs q1 _ h1 hv.2
    exact ⟨q2, by simp [run, e1, e2], h2⟩

/-- C58: with at most `maxSize` pushes since the last clear(), FiFoQueue is a queue: all calls are in range, empty() and size() are those of the
list, and front() is its first element. -/
theorem C58_fifo_partial (t0 : T) (n : Nat) (cs : List (Call T)) (hv : ValidCalls n ([], 0) cs) :
    ∃ q, run (new t0 n) cs = some q ∧ q.size = (cs.foldl Call.apply ([], 0)).1.length ∧ (q.isEmpty = true ↔ (cs.foldl Call.apply ([], 0)).1 = []) ∧
      ∀ t l, (cs.foldl Call.apply ([], 0)).1 = t :: l → q.front = some t := by
  obtain ⟨q, e, h⟩ := holds_run cs (new t0 n) ([], 0) ⟨by simp [new], rfl, rfl, Nat.zero_le _, by intro i hi; simp at hi⟩ hv
  refine ⟨q, e, ?_, ?_, ?_⟩
  · have := h.begin_
    unfold size
    rw [if_pos (by omega)]
    omega
  · have := h.begin_
    simp only [isEmpty, decide_eq_true_eq]
    rw [← List.length_eq_zero_iff]
    omega
  · intro t l hl
    have := h.data 0 (by rw [hl]; simp)
    rw [hl] at this
    simpa [front] using this

example : ValidCalls 3 ([], 0) [Call.push 4, .push 5, .pop, .push 6, .pop, .clear, .push (7 : Nat)] := by
  simp [ValidCalls, Call.Valid, Call.apply]

/-- C58 fails if the queue is used for more than `maxSize` pushes, although it never holds more than one element: the second push writes out of
range. -/
theorem C58_reuse_violated : run (new (0 : Nat) 1) [.push 4, .pop, .push 5] = none := rfl

end Fifo
end OpenGM
