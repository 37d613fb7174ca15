import Verif.Model.Operations
import Verif.Spec.PriorityQueue
import Mathlib.Algebra.Field.Basic
import Mathlib.Order.BoundedOrder.Basic
import Mathlib.Tactic.Ring
import Mathlib.Tactic.FieldSimp
import Mathlib.Tactic.Linarith
/-
C43: the operations; C59: weighted operations; C44: Accumulation.
-/
namespace OpenGM.Ops
open Spec

/-- What users rely on for an operation given in two forms. -/
structure Lawful {V : Type} (neutral : V) (op : V → V → V) (op3 : V → V → V → V) : Prop where
  left : ∀ a, op a neutral = a
  right : ∀ a, op neutral a = a
  forms : ∀ a b out, op3 a b out = op a b
  comm : ∀ a b, op a b = op b a
  assoc : ∀ a b c, op a (op b c) = op (op a b) c

/-- The inverse operation undoes the operation, for the values `c` allowed by `Ok`, in both forms. -/
structure Undoes {V : Type} (Ok : V → Prop) (op iop : V → V → V) (iop3 : V → V → V → V) : Prop where
  undo : ∀ c a, Ok c → iop c (op c a) = a
  undo' : ∀ c a, Ok c → op c (iop c a) = a
  forms : ∀ a b out, Ok b → iop3 a b out = iop b a

/-- C43 (Adder) over any commutative group. -/
theorem C43_adder {V : Type} [AddCommGroup V] :
    Lawful (Adder.neutral : V) Adder.op Adder.op3 ∧ Undoes (fun _ : V => True) Adder.op Adder.iop Adder.iop3 := by
  refine ⟨⟨?_, ?_, ?_, ?_, ?_⟩, ⟨?_, ?_, ?_⟩⟩
  · intro a; simp [Adder.op, Adder.neutral]
  · intro a; simp [Adder.op, Adder.neutral]
  · intro a b out; simp [Adder.op, Adder.op3, add_comm]
  · intro a b; simp [Adder.op, add_comm]
  · intro a b c; simp [Adder.op, add_comm, add_left_comm]
  · intro c a _; simp [Adder.op, Adder.iop]
  · intro c a _; simp [Adder.op, Adder.iop]
  · intro a b out _; simp [Adder.iop, Adder.iop3]

/-- C43 (Multiplier) over any field; the inverse for nonzero values. -/
theorem C43_multiplier {V : Type} [Field V] :
    Lawful (Multiplier.neutral : V) Multiplier.op Multiplier.op3 ∧ Undoes (fun c : V => c ≠ 0) Multiplier.op Multiplier.iop Multiplier.iop3 := by
  refine ⟨⟨?_, ?_, ?_, ?_, ?_⟩, ⟨?_, ?_, ?_⟩⟩
  · intro a; simp [Multiplier.op, Multiplier.neutral]
  · intro a; simp [Multiplier.op, Multiplier.neutral]
  · intro a b out; simp [Multiplier.op, Multiplier.op3, mul_comm]
  · intro a b; simp [Multiplier.op, mul_comm]
  · intro a b c; simp [Multiplier.op]; ring
  · intro c a hc; simp only [Multiplier.op, Multiplier.iop]; field_simp
  · intro c a hc; simp only [Multiplier.op, Multiplier.iop]; field_simp
  · intro a b out _; simp [Multiplier.iop, Multiplier.iop3]

theorem min_op_eq {V : Type} [LinearOrder V] (a b : V) : Minimizer.op a b = min b a := by
  unfold Minimizer.op
  split
  · next h => rw [min_eq_left (le_of_lt h)]
  · next h => rw [min_eq_right (not_lt.mp h)]

theorem max_op_eq {V : Type} [LinearOrder V] (a b : V) : Maximizer.op a b = max b a := by
  unfold Maximizer.op
  split
  · next h => rw [max_eq_left (le_of_lt h)]
  · next h => rw [max_eq_right (not_lt.mp h)]

/-- C43 (Minimizer, partial) over any linear order, if `numeric_limits::infinity()` is its largest element; `bop` says which of two values
`op` keeps. Missing: types without infinity (`C43_violated_integral`). -/
theorem C43_minimizer_partial {V : Type} [LinearOrder V] (infinity : V) (hinf : ∀ a, a ≤ infinity) :
    Lawful (Minimizer.neutral infinity) Minimizer.op Minimizer.op3 ∧ StrictWeak (Minimizer.bop (V := V)) ∧
    (∀ a b : V, Minimizer.op a b = if Minimizer.bop a b then a else b) ∧ (∀ a b : V, Minimizer.ibop a b = Minimizer.bop b a) ∧
    (∀ a b out : V, Minimizer.iop a b = max a b ∧ Minimizer.iop3 a b out = max a b) := by
  refine ⟨⟨?_, ?_, ?_, ?_, ?_⟩, ⟨?_, ?_, ?_⟩, ?_, ?_, ?_⟩
  · intro a; rw [min_op_eq, Minimizer.neutral, min_eq_right (hinf a)]
  · intro a; rw [min_op_eq, Minimizer.neutral, min_eq_left (hinf a)]
  · intro a b out
    rw [min_op_eq]
    unfold Minimizer.op3
    split
    · next h => rw [min_eq_right (le_of_lt h)]
    · next h => rw [min_eq_left (not_lt.mp h)]
  · intro a b; rw [min_op_eq, min_op_eq, min_comm]
  · intro a b c
    simp only [min_op_eq]
    rw [min_assoc, min_comm b a]
  · intro a; simp [Minimizer.bop]
  · intro a b c; simp only [Minimizer.bop, decide_eq_true_eq]; exact lt_trans
  · intro a b c
    simp only [Minimizer.bop, decide_eq_true_eq]
    intro h
    rcases lt_or_ge a c with h' | h'
    · exact Or.inl h'
    · exact Or.inr (lt_of_le_of_lt h' h)
  · intro a b
    unfold Minimizer.op Minimizer.bop
    simp only [decide_eq_true_eq]
    rcases lt_trichotomy a b with h | h | h
    · rw [if_neg (not_lt.mpr (le_of_lt h)), if_pos h]
    · subst h; simp
    · rw [if_pos h, if_neg (not_lt.mpr (le_of_lt h))]
  · intro a b; rfl
  · intro a b out
    unfold Minimizer.iop Minimizer.iop3
    constructor
    · split
      · next h => rw [max_eq_right (le_of_lt h)]
      · next h => rw [max_eq_left (not_lt.mp h)]
    · split
      · next h => rw [max_eq_left (le_of_lt h)]
      · next h => rw [max_eq_right (not_lt.mp h)]

/-- C43 (Maximizer, partial). Missing: types without infinity. -/
theorem C43_maximizer_partial {V : Type} [LinearOrder V] (minusInfinity : V) (hinf : ∀ a, minusInfinity ≤ a) :
    Lawful (Maximizer.neutral minusInfinity) Maximizer.op Maximizer.op3 ∧ StrictWeak (Maximizer.bop (V := V)) ∧
    (∀ a b : V, Maximizer.op a b = if Maximizer.bop a b then a else b) ∧ (∀ a b : V, Maximizer.ibop a b = Maximizer.bop b a) ∧
    (∀ a b out : V, Maximizer.iop a b = min a b ∧ Maximizer.iop3 a b out = min a b) := by
  refine ⟨⟨?_, ?_, ?_, ?_, ?_⟩, ⟨?_, ?_, ?_⟩, ?_, ?_, ?_⟩
  · intro a; rw [max_op_eq, Maximizer.neutral, max_eq_right (hinf a)]
  · intro a; rw [max_op_eq, Maximizer.neutral, max_eq_left (hinf a)]
  · intro a b out
    rw [max_op_eq]
    unfold Maximizer.op3
    split
    · next h => rw [max_eq_right (le_of_lt h)]
    · next h => rw [max_eq_left (not_lt.mp h)]
  · intro a b; rw [max_op_eq, max_op_eq, max_comm]
  · intro a b c
    simp only [max_op_eq]
    rw [max_assoc, max_comm b a]
  · intro a; simp [Maximizer.bop]
  · intro a b c; simp only [Maximizer.bop, decide_eq_true_eq]; exact fun h1 h2 => lt_trans h2 h1
  · intro a b c
    simp only [Maximizer.bop, decide_eq_true_eq]
    intro h
    rcases lt_or_ge b c with h' | h'
    · exact Or.inr h'
    · exact Or.inl (lt_of_le_of_lt h' h)
  · intro a b
    unfold Maximizer.op Maximizer.bop
    simp only [decide_eq_true_eq]
    rcases lt_trichotomy a b with h | h | h
    · rw [if_pos h, if_neg (not_lt.mpr (le_of_lt h))]
    · subst h; simp
    · rw [if_neg (not_lt.mpr (le_of_lt h)), if_pos h]
  · intro a b; rfl
  · intro a b out
    unfold Maximizer.iop Maximizer.iop3
    constructor
    · split
      · next h => rw [min_eq_right (le_of_lt h)]
      · next h => rw [min_eq_left (not_lt.mp h)]
    · split
      · next h => rw [min_eq_left (le_of_lt h)]
      · next h => rw [min_eq_right (not_lt.mp h)]

example : ∀ a : WithTop ℤ, a ≤ ⊤ := fun _ => le_top
example : ∀ a : WithBot ℤ, ⊥ ≤ a := fun _ => bot_le

/-- C43 is violated by Minimizer and Maximizer on integer types, where `numeric_limits<int>::infinity()` is 0: the neutral element
is not neutral. -/
theorem C43_violated_integral : Minimizer.op (5 : Int) (Minimizer.neutral 0) ≠ 5 ∧ Maximizer.op (-5 : Int) (Maximizer.neutral (-0)) ≠ -5 := by
  decide

/-- C43 (And, Or) on `bool`. -/
theorem C43_and_or : Lawful And.neutral And.op And.op3 ∧ Lawful Or.neutral Or.op Or.op3 ∧
    (∀ a b, And.ibop a b = !And.bop a b) ∧ (∀ a b, Or.ibop a b = !Or.bop a b) := by
  refine ⟨⟨?_, ?_, ?_, ?_, ?_⟩, ⟨?_, ?_, ?_, ?_, ?_⟩, ?_, ?_⟩ <;> decide

/-- C43 is violated by And on integers (bitwise conjunction with neutral element 1); Or on integers has a neutral element. -/
theorem C43_violated_and : And.opNat 2 And.neutralNat ≠ 2 ∧ ∀ a, Or.opNat a Or.neutralNat = a ∧ Or.opNat Or.neutralNat a = a := by
  refine ⟨by decide, ?_⟩
  intro a; simp [Or.opNat, Or.neutralNat]

/-- C43 (Integrator, partial): sum. Missing: the in-place inverse (`C43_violated_integrator`). -/
theorem C43_integrator_partial {V : Type} [AddCommGroup V] : Lawful (Integrator.neutral : V) Integrator.op Integrator.op3 ∧
    ∀ a b out : V, Integrator.iop3 (Integrator.op b a) b out = a := by
  refine ⟨⟨?_, ?_, ?_, ?_, ?_⟩, ?_⟩
  · intro a; simp [Integrator.op, Integrator.neutral]
  · intro a; simp [Integrator.op, Integrator.neutral]
  · intro a b out; simp [Integrator.op, Integrator.op3, add_comm]
  · intro a b; simp [Integrator.op, add_comm]
  · intro a b c; simp [Integrator.op, add_comm, add_left_comm]
  · intro a b out; simp [Integrator.op, Integrator.iop3]

/-- C43 is violated by Integrator: the in-place inverse operation has no effect. -/
theorem C43_violated_integrator : Integrator.iop (2 : Int) (Integrator.op 2 3) ≠ 3 ∧ Integrator.iop3 (5 : Int) 2 0 ≠ Integrator.iop 2 5 := by
  decide

/-- C43 (Logsumexp, partial), over the real numbers: the in-place form computes log(exp(out) + exp(in)); the inverse with three
arguments undoes it. Missing: the form with three arguments (`C43_violated_logsumexp`). -/
theorem C43_logsumexp_partial (a b c : ℝ) : Logsumexp.op a b = Real.log (Real.exp b + Real.exp a) ∧
    Logsumexp.op a b = Logsumexp.op b a ∧ Logsumexp.op a (Logsumexp.op b c) = Logsumexp.op (Logsumexp.op a b) c ∧
    (∀ out, Logsumexp.iop3 (Logsumexp.op a b) a out = b) := by
  have key : ∀ a b : ℝ, Logsumexp.op a b = Real.log (Real.exp b + Real.exp a) := by
    intro a b
    unfold Logsumexp.op
    have h1 : (1 : ℝ) + Real.exp (min a b - max a b) ≠ 0 := by positivity
    have : Real.exp b + Real.exp a = Real.exp (max a b) * (1 + Real.exp (min a b - max a b)) := by
      rw [mul_add, mul_one, ← Real.exp_add]
      rcases le_total a b with h | h
      · rw [max_eq_right h, min_eq_left h]; congr 2; ring
      · rw [max_eq_left h, min_eq_right h, add_comm]; congr 2; ring
    rw [this, Real.log_mul (Real.exp_ne_zero _) h1, Real.log_exp]
  have hpos : ∀ a b : ℝ, 0 < Real.exp a + Real.exp b := fun a b => by positivity
  refine ⟨key a b, ?_, ?_, ?_⟩
  · rw [key, key, add_comm]
  · rw [key, key, key, key, Real.exp_log (hpos _ _), Real.exp_log (hpos _ _)]
    congr 1; ring
  · intro out
    unfold Logsumexp.iop3
    rw [key, Real.exp_log (hpos _ _), add_sub_cancel_right, Real.log_exp]

/-- C43 is violated by Logsumexp: the form with three arguments ignores the second one and uses the old value of the result. -/
theorem C43_violated_logsumexp : Logsumexp.op3 0 1 0 ≠ Logsumexp.op 0 1 ∧
    ∀ a b b' out, Logsumexp.op3 a b out = Logsumexp.op3 a b' out := by
  refine ⟨?_, fun _ _ _ _ => rfl⟩
  have h0 : Logsumexp.op3 0 1 0 = Logsumexp.op 0 0 := rfl
  rw [h0, (C43_logsumexp_partial 0 0 0).1, (C43_logsumexp_partial 0 1 0).1]
  intro h
  have := Real.log_injOn_pos (x₁ := Real.exp 0 + Real.exp 0) (Set.mem_Ioi.mpr (by positivity)) (x₂ := Real.exp 1 + Real.exp 0)
    (Set.mem_Ioi.mpr (by positivity)) h
  have h3 : Real.exp 0 = Real.exp 1 := by linarith
  exact absurd (Real.exp_injective h3) (by norm_num)

/-- C59: the weighted operations on sums, over any field: weightedMean is the convex combination, the others add or subtract a
multiple; and a weighted inverse operation undoes the corresponding weighted operation. -/
theorem C59_weighted {V : Type} [Field V] (a b w out : V) :
    Weighted.weightedMean Adder.op Adder.iop Adder.hop a b w = a * w + b * (1 - w) ∧
    Weighted.wop Adder.op Adder.hop a w out = out + a * w ∧
    Weighted.iwop Adder.op Adder.hop (fun x => 1 / x) a w out = out + a / w ∧
    Weighted.wiop Adder.iop Adder.hop a w out = out - a * w ∧
    Weighted.iwiop Adder.iop Adder.hop (fun x => 1 / x) a w out = out - a / w ∧
    Weighted.wiop Adder.iop Adder.hop a w (Weighted.wop Adder.op Adder.hop a w out) = out := by
  refine ⟨?_, ?_, ?_, ?_, ?_, ?_⟩ <;>
    simp only [Weighted.weightedMean, Weighted.wop, Weighted.iwop, Weighted.wiop, Weighted.iwiop, Adder.op, Adder.iop, Adder.hop, mul_one_div] <;> ring

/-- C59 is violated when the result object is the second argument, which only an assertion excludes. -/
theorem C59_violated_aliasing : Weighted.weightedMeanAliased Adder.op Adder.iop Adder.hop (4 : Int) 1 ≠ 4 := by decide

end OpenGM.Ops

namespace OpenGM.Accumulation
open Spec
variable {V S : Type}

/-- The values (with their states, if given) since the last `clear`. -/
def since : List (Call V S) → List (V × Option (List S))
  | calls => calls.foldl (fun l c => match c with
    | .feed v s => l ++ [(v, some s)]
    | .feedValue v => l ++ [(v, none)]
    | .clear => []) []

theorem run_append (bop : V → V → Bool) (op3 : V → V → V → V) (neutral : V) (calls : List (Call V S)) (c : Call V S) :
    run bop op3 neutral (calls ++ [c]) = step bop op3 neutral (run bop op3 neutral calls) c := by
  simp [run]

theorem since_append (calls : List (Call V S)) (c : Call V S) : since (calls ++ [c]) = (match c with
    | .feed v s => since calls ++ [(v, some s)]
    | .feedValue v => since calls ++ [(v, none)]
    | .clear => []) := by
  simp only [since, List.foldl_append, List.foldl_cons, List.foldl_nil]

/-- C44 (value): for every accumulation operation and every history of calls, `value()` is the combination of the values since the
last `clear`, starting from the neutral element. -/
theorem C44_value (bop : V → V → Bool) (op3 : V → V → V → V) (neutral : V) (calls : List (Call V S)) :
    (run bop op3 neutral calls).value = ((since calls).map Prod.fst).foldl (fun acc v => op3 v acc acc) neutral := by
  induction calls using List.reverseRecOn with
  | nil => rfl
  | append_singleton calls c ih =>
    rw [run_append, since_append]
    cases c with
    | feed v s => simp [step, feed, ih]
    | feedValue v => simp [step, feedValue, ih]
    | clear => simp [step, clear]

/-- C44 (state): let the accumulation keep the better of two values. After any history in which every value since the last
`clear` came with a state, no value is better than `value()`, and either no value is better than the neutral element, which is
then `value()`, and the state is empty; or `value()` and the state are those of one call, and `value()` is strictly better
than the neutral element and than all values before that call. -/
theorem C44_state (bop : V → V → Bool) (hw : StrictWeak bop) (op3 : V → V → V → V) (hop : ∀ a b out, op3 a b out = if bop a b then a else b)
    (neutral : V) (calls : List (Call V S)) (hst : ∀ e ∈ since calls, e.2 ≠ none) :
    (∀ e ∈ since calls, bop e.1 (run bop op3 neutral calls).value = false) ∧
    (((∀ e ∈ since calls, bop e.1 neutral = false) ∧ (run bop op3 neutral calls).value = neutral ∧ (run bop op3 neutral calls).state = []) ∨
     ∃ (k : Nat), (since calls)[k]? = some ((run bop op3 neutral calls).value, some (run bop op3 neutral calls).state) ∧
       bop (run bop op3 neutral calls).value neutral = true ∧
       ∀ (j : Nat) (e : V × Option (List S)), j < k → (since calls)[j]? = some e → bop (run bop op3 neutral calls).value e.1 = true) := by
  induction calls using List.reverseRecOn with
  | nil => exact ⟨by simp [since], Or.inl ⟨by simp [since], rfl, rfl⟩⟩
  | append_singleton calls c ih =>
    rw [run_append, since_append]
    rw [since_append] at hst
    cases c with
    | clear => exact ⟨by simp, Or.inl ⟨by simp, rfl, rfl⟩⟩
    | feedValue v => exact absurd rfl (hst (v, none) (by simp))
    | feed v s =>
      simp only at hst ⊢
      obtain ⟨i1, i2⟩ := ih (fun e he => hst e (by simp [he]))
      simp only [step, feed, hop]
      generalize (run bop op3 neutral calls).value = x at i1 i2 ⊢
      generalize (run bop op3 neutral calls).state = st at i2 ⊢
      cases hb : bop v x with
      | false =>
        simp only [Bool.false_eq_true, if_false]
        refine ⟨?_, ?_⟩
        · intro e he
          rcases List.mem_append.mp he with he | he
          · exact i1 e he
          · simp only [List.mem_singleton] at he; subst he; exact hb
        · rcases i2 with ⟨j1, j2, j3⟩ | ⟨k, k1, k2, k3⟩
          · left
            refine ⟨?_, j2, j3⟩
            intro e he
            rcases List.mem_append.mp he with he | he
            · exact j1 e he
            · simp only [List.mem_singleton] at he; subst he; rw [← j2]; exact hb
          · right
            have hk := (List.getElem?_eq_some_iff.mp k1).1
            refine ⟨k, by rw [List.getElem?_append_left hk]; exact k1, k2, ?_⟩
            intro j e hj he
            rw [List.getElem?_append_left (by omega)] at he
            exact k3 j e hj he
      | true =>
        simp only [if_true]
        have hbetter : ∀ e ∈ since calls, bop v e.1 = true := by
          intro e he
          rcases hw.split v x e.1 hb with h | h
          · exact h
          · rw [i1 e he] at h; cases h
        refine ⟨?_, Or.inr ⟨(since calls).length, by simp, ?_, ?_⟩⟩
        · intro e he
          rcases List.mem_append.mp he with he | he
          · cases h : bop e.1 v with
            | false => rfl
            | true =>
              have := hw.trans _ _ _ h (hbetter e he)
              rw [hw.irrefl] at this; cases this
          · simp only [List.mem_singleton] at he; subst he; exact hw.irrefl _
        · rcases i2 with ⟨_, j2, _⟩ | ⟨k, _, k2, _⟩
          · rw [← j2]; exact hb
          · exact hw.trans _ _ _ hb k2
        · intro j e hj he
          rw [List.getElem?_append_left hj] at he
          exact hbetter e (List.mem_of_getElem? he)

/-- The hypotheses are met by Minimizer. -/
example : StrictWeak (Ops.Minimizer.bop (V := WithTop ℤ)) ∧
    (∀ a b out : WithTop ℤ, Ops.Minimizer.op3 a b out = if Ops.Minimizer.bop a b then a else b) ∧
    ∀ e ∈ since [Call.feed (5 : Int) [1], .clear, .feed 3 [0, 2], .feed 1 [1, 1], .feed 1 [0, 0]], e.2 ≠ none := by
  refine ⟨(Ops.C43_minimizer_partial ⊤ (fun _ => le_top)).2.1, ?_, by decide⟩
  intro a b out
  simp only [Ops.Minimizer.op3, Ops.Minimizer.bop, decide_eq_true_eq]

example : run (Ops.Minimizer.bop (V := Int)) Ops.Minimizer.op3 100
    [Call.feed (5 : Int) [1], .clear, .feed 3 [0, 2], .feed 1 [1, 1], .feed 1 [0, 0]] = ⟨1, [1, 1]⟩ := rfl

/-- C44 (neutral) is violated: `neutral()` of the object returns the length of the stored state. -/
theorem C44_violated_neutral : neutral Int.ofNat (run (Ops.Minimizer.bop (V := Int)) Ops.Minimizer.op3 100 [Call.feed (5 : Int) [1]]) ≠ 100 := by
  decide

end OpenGM.Accumulation
