import Verif.Lemmas.BPExact
import Verif.Spec.Marginals
import Verif.Model.MessagePassing
/-
The semiring of the values (with a zero), and what the operations on messages compute.
-/
namespace OpenGM.MessagePassing
open Spec BP
variable {V : Type}

/-- The laws of the rules on the values `P`. -/
abbrev Laws (r : Rules V) (P : V → Prop) : Prop := SumProduct r.o r.accOp r.accNeutral P

variable {r : Rules V} {P : V → Prop}

/-- The values, with a zero. -/
inductive Lift (_ : Laws r P) : Type
  | nil
  | el (a : V) (ha : P a)

namespace Lift
variable {h : Laws r P}

def add : Lift h → Lift h → Lift h
  | .nil, b => b
  | .el a ha, .nil => .el a ha
  | .el a ha, .el b hb => .el (r.accOp a b) (h.value_acc ha hb)

def mul : Lift h → Lift h → Lift h
  | .el a ha, .el b hb => .el (r.o.op a b) (h.value_op ha hb)
  | .nil, _ => .nil
  | .el _ _, .nil => .nil

theorem distrib (a b c : Lift h) : mul a (add b c) = add (mul a b) (mul a c) := by
  rcases a with _ | ⟨a, ha⟩ <;> rcases b with _ | ⟨b, hb⟩ <;> rcases c with _ | ⟨c, hc⟩ <;> simp [add, mul]
  exact h.distrib ha hb hc

theorem mul_comm' (a b : Lift h) : mul a b = mul b a := by
  rcases a with _ | ⟨a, ha⟩ <;> rcases b with _ | ⟨b, hb⟩ <;> simp [mul]
  exact h.monoid.comm a b

theorem add_comm' (a b : Lift h) : add a b = add b a := by
  rcases a with _ | ⟨a, ha⟩ <;> rcases b with _ | ⟨b, hb⟩ <;> simp [add]
  exact h.acc_comm ha hb

theorem mul_assoc' (a b c : Lift h) : mul (mul a b) c = mul a (mul b c) := by
  rcases a with _ | ⟨a, ha⟩ <;> rcases b with _ | ⟨b, hb⟩ <;> rcases c with _ | ⟨c, hc⟩ <;> simp [mul]
  exact h.monoid.assoc a b c

theorem add_assoc' (a b c : Lift h) : add (add a b) c = add a (add b c) := by
  rcases a with _ | ⟨a, ha⟩ <;> rcases b with _ | ⟨b, hb⟩ <;> rcases c with _ | ⟨c, hc⟩ <;> simp [add]
  exact h.acc_assoc ha hb hc

theorem one_mul' (a : Lift h) : mul (.el r.o.neutral h.value_neutral) a = a := by
  rcases a with _ | ⟨a, ha⟩ <;> simp [mul]
  exact h.monoid.neutral_left a

instance : Zero (Lift h) := ⟨.nil⟩
instance : One (Lift h) := ⟨.el r.o.neutral h.value_neutral⟩
instance : Add (Lift h) := ⟨add⟩
instance : Mul (Lift h) := ⟨mul⟩

instance : CommSemiring (Lift h) where
  add_assoc := add_assoc'
  zero_add a := by
    show add .nil a = a
    rfl
  add_zero a := by
    show add a .nil = a
    rcases a with _ | a <;> rfl
  add_comm := add_comm'
  nsmul := nsmulRec
  left_distrib := distrib
  right_distrib a b c := by
    show mul (add a b) c = add (mul a c) (mul b c)
    rw [mul_comm', distrib, mul_comm' c a, mul_comm' c b]
  zero_mul a := by
    show mul .nil a = .nil
    rfl
  mul_zero a := by
    show mul a .nil = .nil
    rcases a with _ | a <;> rfl
  mul_assoc := mul_assoc'
  one_mul := one_mul'
  mul_one a := by
    show mul a (.el _ _) = a
    rw [mul_comm']
    exact one_mul' a
  mul_comm := mul_comm'

open Classical in
/-- A value as an element of the semiring. -/
noncomputable def val (h : Laws r P) (a : V) : Lift h := if ha : P a then .el a ha else .nil

theorem val_of {a : V} (ha : P a) : val h a = .el a ha := by simp [val, ha]

theorem val_inj {a b : V} (ha : P a) (hb : P b) (e : val h a = val h b) : a = b := by
  rw [val_of ha, val_of hb] at e
  simpa using e

theorem val_op {a b : V} (ha : P a) (hb : P b) : val h (r.o.op a b) = val h a * val h b := by
  rw [val_of ha, val_of hb, val_of (h.value_op ha hb)]; rfl

theorem val_acc {a b : V} (ha : P a) (hb : P b) : val h (r.accOp a b) = val h a + val h b := by
  rw [val_of ha, val_of hb, val_of (h.value_acc ha hb)]; rfl

theorem val_neutral : val h r.o.neutral = 1 := val_of h.value_neutral

theorem exists_val {x : Lift h} (hx : x ≠ 0) : ∃ a, P a ∧ x = val h a := by
  rcases x with _ | ⟨a, ha⟩
  · exact absurd rfl hx
  · exact ⟨a, ha, (val_of ha).symm⟩

theorem val_ne {a : V} (ha : P a) : val h a ≠ 0 := by
  rw [val_of ha]
  intro e
  cases e

/-- Combine a list of values. -/
theorem val_foldl {l : List V} (hl : ∀ a ∈ l, P a) {a : V} (ha : P a) : P (l.foldl r.o.op a) ∧ val h (l.foldl r.o.op a) = val h a * (l.map (val h)).prod := by
  induction l generalizing a with
  | nil => simp [ha]
  | cons b l ih =>
    have hb := hl b (by simp)
    have hl' : ∀ a ∈ l, P a := fun a h => hl a (List.mem_cons_of_mem _ h)
    obtain ⟨i1, i2⟩ := ih hl' (h.value_op ha hb)
    refine ⟨i1, ?_⟩
    simp only [List.foldl_cons, List.map_cons, List.prod_cons]
    rw [i2, val_op ha hb, mul_assoc]

theorem val_accumulate_from {l : List V} (hl : ∀ a ∈ l, P a) {a : V} (ha : P a) :
    P (accumulate r.accOp a l) ∧ val h (accumulate r.accOp a l) = (l.map (val h)).sum + val h a := by
  unfold accumulate
  induction l generalizing a with
  | nil => simp [ha]
  | cons b l ih =>
    have hb := hl b (by simp)
    have hl' : ∀ a ∈ l, P a := fun a h => hl a (List.mem_cons_of_mem _ h)
    obtain ⟨i1, i2⟩ := ih hl' (h.value_acc hb ha)
    refine ⟨i1, ?_⟩
    simp only [List.foldl_cons, List.map_cons, List.sum_cons]
    rw [i2, val_acc hb ha, add_left_comm, add_assoc]

/-- Accumulate a list of values. -/
theorem val_accumulate {l : List V} (hl : ∀ a ∈ l, P a) (hne : l ≠ []) :
    P (accumulate r.accOp r.accNeutral l) ∧ val h (accumulate r.accOp r.accNeutral l) = (l.map (val h)).sum := by
  cases l with
  | nil => exact absurd rfl hne
  | cons b l =>
    have hb := hl b (by simp)
    have hl' : ∀ a ∈ l, P a := fun a h => hl a (List.mem_cons_of_mem _ h)
    have e : accumulate r.accOp r.accNeutral (b :: l) = accumulate r.accOp b l := by
      simp only [accumulate, List.foldl_cons, h.acc_zero hb]
    obtain ⟨i1, i2⟩ := val_accumulate_from (h := h) hl' hb
    rw [e]
    refine ⟨i1, ?_⟩
    rw [i2, List.map_cons, List.sum_cons, add_comm]

end Lift
open Lift

/-! ### Rows -/

/-- A row of a message to or from variable `v`: a multiple of `ex`; the factor is neutral if messages are not normalised. -/
structure GoodRow (h : Laws r P) (norm : Bool) (nl : List Nat) (v : Nat) (ex : List Nat → Lift h) (row : List V) : Prop where
  length : row.length = nl.getD v 0
  values : ∀ a ∈ row, P a
  exact : ∃ c d, P c ∧ P d ∧ r.o.op c d = r.o.neutral ∧ (norm = false → c = r.o.neutral) ∧
    ∀ x ∈ Om nl, ∀ a, row[x.getD v 0]? = some a → val h a = val h c * ex x

variable {h : Laws r P} {norm : Bool} {nl : List Nat}

theorem opAt_eq {o : Operation V} {n : Nat} {ι : Type} {row : ι → List V} : ∀ {is : List ι} {a : V}, (∀ i ∈ is, n < (row i).length) →
    ∃ bs, is.mapM (fun i => (row i)[n]?) = some bs ∧ opAt o n (is.map row) a = some (bs.foldl o.op a)
  | [], a, _ => ⟨[], rfl, rfl⟩
  | i :: is, a, hm => by
    have h0 : n < (row i).length := hm i (by simp)
    have h1 : (row i)[n]? = some (row i)[n] := List.getElem?_eq_getElem h0
    obtain ⟨bs, e1, e2⟩ := opAt_eq (o := o) (is := is) (a := o.op a (row i)[n]) (fun m' h => hm m' (List.mem_cons_of_mem _ h))
    refine ⟨(row i)[n] :: bs, ?_, ?_⟩
    · rw [List.mapM_cons, h1, e1]; rfl
    · rw [List.map_cons, opAt, h1]; exact e2

/-- Entries of a list of rows, and the exact messages. -/
theorem prod_rows {ι : Type} (var : ι → Nat) (ex : ι → List Nat → Lift h) (row : ι → List V) :
    ∀ (is : List ι), (∀ i ∈ is, GoodRow h norm nl (var i) (ex i) (row i)) → ∃ c d, P c ∧ P d ∧ r.o.op c d = r.o.neutral ∧ (norm = false → c = r.o.neutral) ∧
      ∀ x ∈ Om nl, ∀ bs, is.mapM (fun i => (row i)[x.getD (var i) 0]?) = some bs → (∀ b ∈ bs, P b) ∧ (bs.map (val h)).prod = val h c * (is.map (fun i => ex i x)).prod
  | [], _ => ⟨r.o.neutral, r.o.neutral, h.value_neutral, h.value_neutral, h.monoid.neutral_left _, fun _ => rfl, by
      intro x hx bs hb
      simp at hb
      subst hb
      simp [val_neutral]⟩
  | i :: is, hg => by
    obtain ⟨hlen, hval, c1, d1, pc1, pd1, u1, n1, g1⟩ := hg i (by simp)
    obtain ⟨c2, d2, pc2, pd2, u2, n2, g2⟩ := prod_rows var ex row is (fun j hj => hg j (List.mem_cons_of_mem _ hj))
    refine ⟨r.o.op c1 c2, r.o.op d1 d2, h.value_op pc1 pc2, h.value_op pd1 pd2, ?_, ?_, ?_⟩
    · apply val_inj (h := h) (h.value_op (h.value_op pc1 pc2) (h.value_op pd1 pd2)) h.value_neutral
      rw [val_op (h.value_op pc1 pc2) (h.value_op pd1 pd2), val_op pc1 pc2, val_op pd1 pd2, mul_mul_mul_comm, ← val_op pc1 pd1, ← val_op pc2 pd2, u1, u2, val_neutral, one_mul]
    · intro hn
      rw [n1 hn, n2 hn]
      exact h.monoid.neutral_left _
    · intro x hx bs hb
      rw [List.mapM_cons] at hb
      cases e1 : (row i)[x.getD (var i) 0]? with
      | none => rw [e1] at hb; simp at hb
      | some a =>
        cases e2 : is.mapM (fun i => (row i)[x.getD (var i) 0]?) with
        | none => rw [e1, e2] at hb; simp at hb
        | some bs' =>
          rw [e1, e2] at hb
          simp at hb
          subst hb
          obtain ⟨p1, p2⟩ := g2 x hx bs' e2
          have pa : P a := hval a (List.mem_of_getElem? e1)
          refine ⟨?_, ?_⟩
          · intro b hb
            rcases List.mem_cons.mp hb with rfl | hb
            · exact pa
            · exact p1 b hb
          · rw [List.map_cons, List.prod_cons, p2, g1 x hx a e1, List.map_cons, List.prod_cons, val_op pc1 pc2, mul_mul_mul_comm]

theorem mapM_range_some {β : Type} {f : Nat → Option β} {n : Nat} (hf : ∀ k < n, ∃ b, f k = some b) :
    ∃ out, (List.range n).mapM f = some out ∧ out.length = n ∧ ∀ k < n, out[k]? = f k := by
  induction n with
  | zero => exact ⟨[], rfl, rfl, by simp⟩
  | succ n ih =>
    obtain ⟨out, e1, e2, e3⟩ := ih (fun k hk => hf k (by omega))
    obtain ⟨b, hb⟩ := hf n (by omega)
    refine ⟨out ++ [b], ?_, by simp [e2], ?_⟩
    · rw [List.range_succ, List.mapM_append, e1]
      simp [hb]
    · intro k hk
      by_cases hkn : k = n
      · subst hkn
        rw [List.getElem?_append_right (by omega)]
        simp [e2, hb]
      · rw [List.getElem?_append_left (by omega)]
        exact e3 k (by omega)

/-- There is a labeling with a given label. -/
theorem exists_labeling (hp : ∀ n ∈ nl, 0 < n) {v l : Nat} (hv : v < nl.length) (hl : l < nl.getD v 0) : ∃ x ∈ Om nl, x.getD v 0 = l := by
  refine ⟨(List.replicate nl.length 0).set v l, ?_, ?_⟩
  · rw [mem_Om]
    refine ⟨by simp, fun w hw => ?_⟩
    by_cases hwv : w = v
    · subst hwv; simpa [List.getD, hw] using hl
    · have : 0 < nl[w] := hp _ (List.getElem_mem hw)
      simp [List.getD, hw, List.getElem_set, Ne.symm hwv, this]
  · simp [List.getD, hv]

/-- `operate` computes the product of the messages. -/
theorem operate_good (hp : ∀ n ∈ nl, 0 < n) {v : Nat} (hv : v < nl.length) {ι : Type} {ex : ι → List Nat → Lift h} {row : ι → List V} {is : List ι}
    (hg : ∀ i ∈ is, GoodRow h norm nl v (ex i) (row i)) :
    ∃ out, operate r.o (nl.getD v 0) (is.map row) = some out ∧ GoodRow h norm nl v (fun x => (is.map (fun i => ex i x)).prod) out := by
  have hlen : ∀ n < nl.getD v 0, ∀ i ∈ is, n < (row i).length := by
    intro n hn i hi
    rw [(hg i hi).length]; exact hn
  obtain ⟨out, e1, e2, e3⟩ := mapM_range_some (f := fun n => opAt r.o n (is.map row) r.o.neutral) (n := nl.getD v 0)
    (fun k hk => by obtain ⟨bs, _, hb⟩ := opAt_eq (o := r.o) (a := r.o.neutral) (hlen k hk); exact ⟨_, hb⟩)
  obtain ⟨c, d, pc, pd, u, nn, g⟩ := prod_rows (fun _ => v) ex row is hg
  have key : ∀ x ∈ Om nl, ∀ a, out[x.getD v 0]? = some a → P a ∧ val h a = val h c * (is.map (fun i => ex i x)).prod := by
    intro x hx a ha
    have hlt : x.getD v 0 < nl.getD v 0 := (mem_Om.mp hx).2 v hv
    obtain ⟨bs, b1, b2⟩ := opAt_eq (o := r.o) (a := r.o.neutral) (hlen _ hlt)
    rw [e3 _ hlt, b2] at ha
    cases ha
    obtain ⟨p1, p2⟩ := g x hx bs b1
    obtain ⟨q1, q2⟩ := val_foldl (h := h) p1 h.value_neutral
    refine ⟨q1, ?_⟩
    rw [q2, val_neutral, one_mul, p2]
  refine ⟨out, e1, e2, ?_, c, d, pc, pd, u, nn, fun x hx a ha => (key x hx a ha).2⟩
  intro a ha
  obtain ⟨k, hk, hka⟩ := List.getElem_of_mem ha
  obtain ⟨x, hx, hxl⟩ := exists_labeling hp hv (l := k) (by omega)
  exact (key x hx a (by rw [hxl, List.getElem?_eq_getElem hk, hka])).1

/-- What `normalize` needs of the inverse operation. -/
abbrev Divides (r : Rules V) (P : V → Prop) : Prop := Division r.o r.iop r.skip P

theorem GoodRow.ne_nil (hp : ∀ n ∈ nl, 0 < n) {v : Nat} (hv : v < nl.length) {ex : List Nat → Lift h} {row : List V} (hg : GoodRow h norm nl v ex row) : row ≠ [] := by
  intro e
  have h1 := hg.length
  have h2 := hp _ (List.getElem_mem hv)
  rw [e] at h1
  simp [List.getD, hv] at h1
  omega

/-- `normalize` multiplies all entries with the same unit. -/
theorem normalize_good (hd : Divides r P) (hp : ∀ n ∈ nl, 0 < n) {v : Nat} (hv : v < nl.length) {ex : List Nat → Lift h} {row : List V}
    (hg : GoodRow h true nl v ex row) : GoodRow h true nl v ex (normalize r row) := by
  have hne := hg.ne_nil hp hv
  obtain ⟨p1, _⟩ := val_accumulate (h := h) hg.values hne
  unfold normalize
  simp only
  split
  · exact hg
  · rename_i hs
    have hs' : r.skip (accumulate r.accOp r.accNeutral row) = false := Bool.eq_false_iff.mpr hs
    obtain ⟨c, d, pc, pd, u, hc⟩ := hd.unit _ p1 hs'
    obtain ⟨hlen, hval, c1, d1, pc1, pd1, u1, n1, g1⟩ := hg
    have hm : row.map (r.iop (accumulate r.accOp r.accNeutral row)) = row.map (r.o.op c) := List.map_congr_left (fun a ha => hc a (hval a ha))
    show GoodRow h true nl v ex (row.map (r.iop (accumulate r.accOp r.accNeutral row)))
    rw [hm]
    refine ⟨by simpa using hlen, ?_, r.o.op c c1, r.o.op d d1, h.value_op pc pc1, h.value_op pd pd1, ?_, by simp, ?_⟩
    · intro a ha
      obtain ⟨b, hb, rfl⟩ := List.mem_map.mp ha
      exact h.value_op pc (hval b hb)
    · apply val_inj (h := h) (h.value_op (h.value_op pc pc1) (h.value_op pd pd1)) h.value_neutral
      rw [val_op (h.value_op pc pc1) (h.value_op pd pd1), val_op pc pc1, val_op pd pd1, mul_mul_mul_comm, ← val_op pc pd, ← val_op pc1 pd1, u, u1, val_neutral, one_mul]
    · intro x hx a ha
      rw [List.getElem?_map] at ha
      cases e : row[x.getD v 0]? with
      | none => rw [e] at ha; simp at ha
      | some b =>
        rw [e] at ha
        simp at ha
        subst ha
        have pb := hval b (List.mem_of_getElem? e)
        rw [val_op pc pb, g1 x hx b e, val_op pc pc1, mul_assoc]

/-- After `normalize` the entries accumulate to the neutral element of the operation, unless normalisation is skipped. -/
theorem normalize_total (hd : Divides r P) {row : List V} (h : Laws r P) (hval : ∀ a ∈ row, P a) (hne : row ≠ []) :
    accumulate r.accOp r.accNeutral (normalize r row) = r.o.neutral ∨ (r.skip (accumulate r.accOp r.accNeutral row) = true ∧ normalize r row = row) := by
  obtain ⟨p1, p2⟩ := val_accumulate (h := h) hval hne
  unfold normalize
  simp only
  split
  · rename_i hs; exact Or.inr ⟨hs, rfl⟩
  · rename_i hs
    left
    have hs' : r.skip (accumulate r.accOp r.accNeutral row) = false := Bool.eq_false_iff.mpr hs
    obtain ⟨c, d, pc, pd, u, hc⟩ := hd.unit _ p1 hs'
    have hm : row.map (r.iop (accumulate r.accOp r.accNeutral row)) = row.map (r.o.op c) := List.map_congr_left (fun a ha => hc a (hval a ha))
    show accumulate r.accOp r.accNeutral (row.map (r.iop (accumulate r.accOp r.accNeutral row))) = _
    rw [← hd.self _ p1 hs', hc _ p1, hm]
    have hval' : ∀ a ∈ row.map (r.o.op c), P a := by
      intro a ha
      obtain ⟨b, hb, rfl⟩ := List.mem_map.mp ha
      exact h.value_op pc (hval b hb)
    obtain ⟨q1, q2⟩ := val_accumulate (h := h) hval' (by simpa using hne)
    apply val_inj (h := h) q1 (h.value_op pc p1)
    rw [q2, val_op pc p1, p2, ← List.sum_map_mul_left, List.map_map]
    congr 1
    apply List.map_congr_left
    intro a ha
    exact val_op pc (hval a ha)

/-! ### Messages of factors -/

theorem opMessages_eq {o : Operation V} {ι : Type} {row : ι → List V} {lab : ι → Nat} : ∀ {is : List ι} {a : V}, (∀ i ∈ is, lab i < (row i).length) →
    ∃ bs, is.mapM (fun i => (row i)[lab i]?) = some bs ∧ opMessages o (is.map row) (is.map lab) a = some (bs.foldl o.op a)
  | [], a, _ => ⟨[], rfl, rfl⟩
  | i :: is, a, hm => by
    have h0 : lab i < (row i).length := hm i (by simp)
    have h1 : (row i)[lab i]? = some (row i)[lab i] := List.getElem?_eq_getElem h0
    obtain ⟨bs, e1, e2⟩ := opMessages_eq (o := o) (is := is) (a := o.op a (row i)[lab i]) (fun m' h => hm m' (List.mem_cons_of_mem _ h))
    refine ⟨(row i)[lab i] :: bs, ?_, ?_⟩
    · rw [List.mapM_cons, h1, e1]; rfl
    · rw [List.map_cons, List.map_cons, opMessages, h1]; exact e2

theorem accumulateLoop_eq {call : List Nat → Option V} {ms : List (List V)} {i : Nat} {value : List Nat → V} {lab : List Nat → Nat} :
    ∀ {ts : List (List Nat)} {out : List V},
      (∀ t ∈ ts, t[i]? = some (lab t) ∧ lab t < out.length ∧ ∃ a, call t = some a ∧ opMessages r.o (ms.eraseIdx i) (t.eraseIdx i) a = some (value t)) →
      ∃ out', accumulateLoop r call ms i ts out = some out' ∧ out'.length = out.length ∧
        ∀ l a, out[l]? = some a → out'[l]? = some (accumulate r.accOp a ((ts.filter (fun t => decide (lab t = l))).map value))
  | [], out, _ => ⟨out, rfl, rfl, fun l a ha => by simpa [accumulate] using ha⟩
  | t :: ts, out, ht => by
    obtain ⟨h1, h2, a, h3, h4⟩ := ht t (by simp)
    have h5 : out[lab t]? = some out[lab t] := List.getElem?_eq_getElem h2
    obtain ⟨out', e1, e2, e3⟩ := accumulateLoop_eq (call := call) (ms := ms) (i := i) (value := value) (lab := lab) (ts := ts)
      (out := out.set (lab t) (r.accOp (value t) out[lab t])) (fun t' ht' => by
        obtain ⟨g1, g2, g3⟩ := ht t' (List.mem_cons_of_mem _ ht')
        exact ⟨g1, by simpa using g2, g3⟩)
    refine ⟨out', ?_, by simpa using e2, ?_⟩
    · rw [accumulateLoop, h3, h1]
      simp only
      rw [h4, h5]
      exact e1
    · intro l b hb
      have hl : l < out.length := (List.getElem?_eq_some_iff.mp hb).1
      by_cases hlt : lab t = l
      · subst hlt
        rw [h5] at hb
        cases hb
        have := e3 (lab t) _ (List.getElem?_set_self h2)
        rw [this]
        simp [accumulate]
      · have := e3 l b (by rw [List.getElem?_set_ne hlt]; exact hb)
        rw [this]
        simp [hlt]

theorem mem_tuples {shape t : List Nat} : t ∈ tuples shape ↔ InShape shape t := by
  unfold tuples
  split
  · rename_i n0 n1
    simp only [pairs, List.mem_flatMap, List.mem_map, List.mem_range]
    constructor
    · rintro ⟨a, ha, b, hb, rfl⟩
      exact ⟨ha, hb, trivial⟩
    · intro hin
      rcases t with _ | ⟨a, _ | ⟨b, _ | ⟨c, t⟩⟩⟩ <;> simp [InShape] at hin
      exact ⟨a, hin.1, b, hin.2, rfl⟩
  · exact mem_allTuples _ _

theorem nodup_tuples (shape : List Nat) : (tuples shape).Nodup := by
  unfold tuples
  split
  · rename_i n0 n1
    rw [pairs, List.nodup_flatMap]
    refine ⟨fun a _ => List.nodup_range.map (fun b b' e => by simpa using e), ?_⟩
    refine List.Pairwise.imp_of_mem ?_ List.nodup_range
    intro a b _ _ hne t h1 h2
    simp only [List.mem_map, List.mem_range] at h1 h2
    obtain ⟨_, _, rfl⟩ := h1
    obtain ⟨_, _, e⟩ := h2
    simp at e
    exact hne e.1.symm
  · exact nodup_allTuples _

/-- A labeling with given labels of some variables. -/
theorem exists_fill : ∀ {scope t : List Nat} {x : List Nat}, x ∈ Om nl → scope.Nodup → (∀ w ∈ scope, w < nl.length) → InShape (restrict nl scope) t →
    ∃ y ∈ Om nl, restrict y scope = t ∧ ∀ w, w ∉ scope → y.getD w 0 = x.getD w 0
  | [], [], x, hx, _, _, _ => ⟨x, hx, rfl, fun _ _ => rfl⟩
  | [], _ :: _, _, _, _, _, hin => by simp [restrict, InShape] at hin
  | _ :: _, [], _, _, _, _, hin => by simp [restrict, InShape] at hin
  | v :: scope, l :: t, x, hx, hn, hr, hin => by
    simp only [restrict, List.map_cons, InShape] at hin
    obtain ⟨hv, hn⟩ := List.nodup_cons.mp hn
    obtain ⟨y, hy, e1, e2⟩ := exists_fill (scope := scope) (t := t) hx hn (fun w hw => hr w (List.mem_cons_of_mem _ hw)) hin.2
    have hvl := hr v (by simp)
    have hyl := (mem_Om.mp hy).1
    have hget : ∀ w, (y.set v l).getD w 0 = if w = v then l else y.getD w 0 := by
      intro w
      by_cases hwv : w = v
      · subst hwv; simp [List.getD, hyl, hvl]
      · simp [List.getD, List.getElem?_set_ne (Ne.symm hwv), hwv]
    refine ⟨y.set v l, ?_, ?_, ?_⟩
    · rw [mem_Om]
      refine ⟨by simpa using hyl, fun w hw => ?_⟩
      rw [hget]
      split
      · rename_i e; subst e; exact hin.1
      · exact (mem_Om.mp hy).2 w hw
    · rw [← e1]
      simp only [restrict, List.map_cons, hget, if_true]
      congr 1
      apply List.map_congr_left
      intro w hw
      have : w ≠ v := fun e => hv (e ▸ hw)
      simp [this]
    · intro w hw
      simp only [List.mem_cons, not_or] at hw
      rw [hget, if_neg hw.1]
      exact e2 w hw.2

/-- Products over a list without one element. -/
theorem prod_eraseIdx {R : Type} [CommSemiring R] {l : List Nat} (hn : l.Nodup) {i v : Nat} (hi : l[i]? = some v) (g : Nat → R) :
    ((l.eraseIdx i).map g).prod = ∏ w ∈ l.toFinset.erase v, g w := by
  obtain ⟨hlt, hv⟩ := List.getElem?_eq_some_iff.mp hi
  have he : l.eraseIdx i = l.erase v := by rw [← hv, hn.erase_getElem]
  rw [he, ← List.prod_toFinset g (hn.erase v)]
  congr 1
  ext w
  simp [hn.mem_erase_iff, and_comm]

theorem restrict_inShape {x scope : List Nat} (hx : x ∈ Om nl) (hr : ∀ w ∈ scope, w < nl.length) : InShape (restrict nl scope) (restrict x scope) := by
  induction scope with
  | nil => trivial
  | cons v scope ih => exact ⟨(mem_Om.mp hx).2 v (hr v (by simp)), ih (fun w hw => hr w (List.mem_cons_of_mem _ hw))⟩

theorem mapM_congr' {α β : Type} {f g : α → Option β} : ∀ {l : List α}, (∀ a ∈ l, f a = g a) → l.mapM f = l.mapM g
  | [], _ => rfl
  | a :: l, hfg => by
    rw [List.mapM_cons, List.mapM_cons, hfg a (by simp), mapM_congr' (l := l) (fun b hb => hfg b (List.mem_cons_of_mem _ hb))]

/-- `operateF` computes the sum of the product of the function and the messages. -/
theorem operateF_good (hp : ∀ n ∈ nl, 0 < n) {gm : GM V} {rec : FactorRec} {scope : List Nat} {v i : Nat} (hn : scope.Nodup) (hi : scope[i]? = some v)
    (hr : ∀ w ∈ scope, w < nl.length) {fn : Fn V} (hfn : gm.getFunction ⟨rec.functionIndex, rec.functionType⟩ = some fn) (hsh : fn.shape = restrict nl scope)
    {table : List Nat → V} (htab : ∀ t, InShape (restrict nl scope) t → P (table t)) (hcall : ∀ t, InShape (restrict nl scope) t → gm.callFactor rec t = some (table t))
    {ex : Nat → List Nat → Lift h} {row : Nat → List V} (hg : ∀ w ∈ scope, w ≠ v → GoodRow h norm nl w (ex w) (row w)) :
    ∃ out, operateF r gm rec (scope.map row) i (nl.getD v 0) = some out ∧
      GoodRow h norm nl v (sumOver nl {w | w ∈ scope ∧ w ≠ v} (fun y => val h (table (restrict y scope)) * ∏ w ∈ scope.toFinset.erase v, ex w y)) out := by
  obtain ⟨hilt, hiv⟩ := List.getElem?_eq_some_iff.mp hi
  have hvs : v ∈ scope := List.mem_of_getElem? hi
  have hvl := hr v hvs
  have hers : ∀ w ∈ scope.eraseIdx i, w ∈ scope ∧ w ≠ v := by
    intro w hw
    have he : scope.eraseIdx i = scope.erase v := by rw [← hiv, hn.erase_getElem]
    rw [he, hn.mem_erase_iff] at hw
    exact ⟨hw.2, hw.1⟩
  obtain ⟨c, d, pc, pd, u, nn, g⟩ := prod_rows (fun w => w) ex row (scope.eraseIdx i) (fun w hw => hg w (hers w hw).1 (hers w hw).2)
  have hpos : 0 < nl.getD v 0 := by
    have := hp _ (List.getElem_mem hvl); simpa [List.getD, hvl] using this
  obtain ⟨x0, hx0, _⟩ := exists_labeling hp hvl hpos
  have hY : ∀ t, ∃ y, InShape (restrict nl scope) t → y ∈ Om nl ∧ restrict y scope = t := by
    intro t
    by_cases ht : InShape (restrict nl scope) t
    · obtain ⟨y, h1, h2, _⟩ := exists_fill hx0 hn hr ht
      exact ⟨y, fun _ => ⟨h1, h2⟩⟩
    · exact ⟨[], fun h => absurd h ht⟩
  choose Y hY using hY
  have hval : ∀ t, ∃ b, InShape (restrict nl scope) t → opMessages r.o ((scope.map row).eraseIdx i) (t.eraseIdx i) (table t) = some b ∧ P b ∧
      ∀ y ∈ Om nl, restrict y scope = t → val h b = val h (table t) * (val h c * ∏ w ∈ scope.toFinset.erase v, ex w y) := by
    intro t
    by_cases ht : InShape (restrict nl scope) t
    · obtain ⟨hy1, hy2⟩ := hY t ht
      have hlen : ∀ w ∈ scope.eraseIdx i, (Y t).getD w 0 < (row w).length := by
        intro w hw
        rw [(hg w (hers w hw).1 (hers w hw).2).length]
        exact (mem_Om.mp hy1).2 w (hr w (hers w hw).1)
      obtain ⟨bs, b1, b2⟩ := opMessages_eq (o := r.o) (row := row) (lab := fun w => (Y t).getD w 0) (is := scope.eraseIdx i) (a := table t) hlen
      obtain ⟨p1, _⟩ := g (Y t) hy1 bs b1
      obtain ⟨q1, q2⟩ := val_foldl (h := h) p1 (htab t ht)
      refine ⟨_, fun _ => ⟨?_, q1, ?_⟩⟩
      · rw [← b2]
        congr 1
        · rw [List.eraseIdx_map]
        · rw [← List.eraseIdx_map]
          congr 1
          exact hy2.symm
      · intro y hy e
        have b1' : (scope.eraseIdx i).mapM (fun w => (row w)[y.getD w 0]?) = some bs := by
          rw [← b1]
          apply mapM_congr'
          intro w hw
          have : y.getD w 0 = (Y t).getD w 0 := (List.map_inj_left.mp (e.trans hy2.symm)) w (hers w hw).1
          rw [this]
        rw [q2, (g y hy bs b1').2, prod_eraseIdx hn hi]
    · exact ⟨table t, fun h => absurd h ht⟩
  choose value hvalue using hval
  have hlab : ∀ t, InShape (restrict nl scope) t → t[i]? = some (t.getD i 0) ∧ t.getD i 0 < nl.getD v 0 := by
    intro t ht
    obtain ⟨hy1, hy2⟩ := hY t ht
    have e : t[i]? = some ((Y t).getD v 0) := by
      conv => lhs; rw [← hy2]
      rw [restrict, List.getElem?_map, hi]; rfl
    have e' : t.getD i 0 = (Y t).getD v 0 := by simp [List.getD, e]
    rw [e']
    exact ⟨e, (mem_Om.mp hy1).2 v hvl⟩
  obtain ⟨out, e1, e2, e3⟩ := accumulateLoop_eq (r := r) (call := gm.callFactor rec) (ms := scope.map row) (i := i) (value := value) (lab := fun t => t.getD i 0)
    (ts := tuples fn.shape) (out := List.replicate (nl.getD v 0) r.accNeutral) (by
      intro t ht
      rw [mem_tuples, hsh] at ht
      obtain ⟨h1, h2⟩ := hlab t ht
      exact ⟨h1, by simpa using h2, table t, hcall t ht, (hvalue t ht).1⟩)
  simp only [List.length_replicate] at e2
  have key : ∀ x ∈ Om nl, ∀ a, out[x.getD v 0]? = some a → P a ∧
      val h a = val h c * sumOver nl {w | w ∈ scope ∧ w ≠ v} (fun y => val h (table (restrict y scope)) * ∏ w ∈ scope.toFinset.erase v, ex w y) x := by
    intro x hx a ha
    have hlt := (mem_Om.mp hx).2 v hvl
    rw [e3 (x.getD v 0) r.accNeutral (by rw [List.getElem?_replicate, if_pos hlt])] at ha
    cases ha
    have hmem : ∀ t, t ∈ (tuples fn.shape).filter (fun t => decide (t.getD i 0 = x.getD v 0)) ↔ InShape (restrict nl scope) t ∧ t.getD i 0 = x.getD v 0 := by
      intro t
      rw [List.mem_filter, mem_tuples, hsh]
      simp
    have hxi : (restrict x scope).getD i 0 = x.getD v 0 := by
      have : (restrict x scope)[i]? = some (x.getD v 0) := by rw [restrict, List.getElem?_map, hi]; rfl
      simp [List.getD, this]
    have hx' := (hmem (restrict x scope)).mpr ⟨restrict_inShape hx hr, hxi⟩
    obtain ⟨q1, q2⟩ := val_accumulate (h := h) (l := ((tuples fn.shape).filter (fun t => decide (t.getD i 0 = x.getD v 0))).map value) (by
      intro b hb
      obtain ⟨t, ht, rfl⟩ := List.mem_map.mp hb
      exact (hvalue t ((hmem t).mp ht).1).2.1) (by
      intro e
      rw [List.map_eq_nil_iff] at e
      rw [e] at hx'
      simp at hx')
    refine ⟨q1, ?_⟩
    rw [q2, List.map_map, ← List.sum_toFinset _ ((nodup_tuples _).filter _)]
    unfold sumOver
    rw [Finset.mul_sum]
    symm
    refine Finset.sum_bij (fun y _ => restrict y scope) ?_ ?_ ?_ ?_
    · intro y hy
      rw [mem_cyl] at hy
      rw [List.mem_toFinset, hmem]
      refine ⟨restrict_inShape hy.1 hr, ?_⟩
      have : (restrict y scope)[i]? = some (y.getD v 0) := by rw [restrict, List.getElem?_map, hi]; rfl
      have e : (restrict y scope).getD i 0 = y.getD v 0 := by simp [List.getD, this]
      rw [e]
      exact hy.2 v (by simp)
    · intro y hy y' hy' e
      rw [mem_cyl] at hy hy'
      refine Om_ext hy.1 hy'.1 (fun w _ => ?_)
      by_cases hw : w ∈ scope
      · exact (List.map_inj_left.mp e) w hw
      · rw [hy.2 w (fun h => hw h.1), hy'.2 w (fun h => hw h.1)]
    · intro t ht
      rw [List.mem_toFinset, hmem] at ht
      obtain ⟨y, hy, e, hout⟩ := exists_fill hx hn hr ht.1
      refine ⟨y, ?_, e⟩
      rw [mem_cyl]
      refine ⟨hy, fun w hw => ?_⟩
      by_cases hws : w ∈ scope
      · have hwv : w = v := by
          by_contra hne
          exact hw ⟨hws, hne⟩
        subst hwv
        rw [← ht.2, ← e]
        have : (restrict y scope)[i]? = some (y.getD w 0) := by rw [restrict, List.getElem?_map, hi]; rfl
        simp [List.getD, this]
      · exact hout w hws
    · intro y hy
      rw [mem_cyl] at hy
      have hin := restrict_inShape hy.1 hr
      rw [Function.comp, (hvalue _ hin).2.2 y hy.1 rfl, mul_left_comm]
  refine ⟨out, ?_, e2, ?_, c, d, pc, pd, u, nn, fun x hx a ha => (key x hx a ha).2⟩
  · unfold operateF
    rw [hfn]
    exact e1
  intro a ha
  obtain ⟨k, hk, hka⟩ := List.getElem_of_mem ha
  obtain ⟨x, hx, hxl⟩ := exists_labeling hp hvl (l := k) (by omega)
  exact (key x hx a (by rw [hxl, List.getElem?_eq_getElem hk, hka])).1

end OpenGM.MessagePassing
