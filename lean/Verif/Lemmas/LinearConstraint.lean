import Verif.Spec.LinearConstraint
import Verif.Lemmas.SoftConstraint
import Mathlib.Algebra.Order.Ring.Defs
import Mathlib.Tactic.Ring
import Mathlib.Tactic.Linarith
/-
Lemmas for C80.
-/
namespace OpenGM.LinCon
open Spec Learnable SoftConstraint

/-! ### Pairs -/

theorem pairLe_iff (a b : Nat × Nat) : pairLe a b = true ↔ a.1 < b.1 ∨ (a.1 = b.1 ∧ a.2 ≤ b.2) := by
  simp [pairLe]

theorem pairLe_total (a b : Nat × Nat) (h : pairLe a b ≠ true) : pairLe b a = true := by
  rw [Ne, pairLe_iff] at h; rw [pairLe_iff]; omega

theorem pairLe_trans {a b c : Nat × Nat} (h : pairLe a b = true) (h' : pairLe b c = true) : pairLe a c = true := by
  rw [pairLe_iff] at *; omega

theorem insertPair_perm (a : Nat × Nat) : ∀ l, (insertPair a l).Perm (a :: l)
  | [] => List.Perm.refl _
  | b :: l => by
    unfold insertPair
    split
    · exact List.Perm.refl _
    · exact ((insertPair_perm a l).cons b).trans (List.Perm.swap a b l)

theorem sortPairs_perm : ∀ l, (sortPairs l).Perm l
  | [] => List.Perm.refl _
  | a :: l => (insertPair_perm a _).trans ((sortPairs_perm l).cons a)

abbrev SortedPairs (l : List (Nat × Nat)) : Prop := l.Pairwise (fun a b => pairLe a b = true)

theorem insertPair_sorted (a : Nat × Nat) : ∀ l, SortedPairs l → SortedPairs (insertPair a l)
  | [], _ => by simp [insertPair]
  | b :: l, h => by
    obtain ⟨hb, hl⟩ := List.pairwise_cons.mp h
    unfold insertPair
    split
    · rename_i hab
      refine List.pairwise_cons.mpr ⟨?_, h⟩
      intro c hc
      rcases List.mem_cons.mp hc with rfl | hc
      · exact hab
      · exact pairLe_trans hab (hb c hc)
    · rename_i hab
      refine List.pairwise_cons.mpr ⟨?_, insertPair_sorted a l hl⟩
      intro c hc
      rcases List.mem_cons.mp ((insertPair_perm a l).mem_iff.mp hc) with rfl | hc
      · exact pairLe_total _ _ hab
      · exact hb c hc

theorem sortPairs_sorted : ∀ l, SortedPairs (sortPairs l)
  | [] => List.Pairwise.nil
  | a :: l => insertPair_sorted a _ (sortPairs_sorted l)

theorem sortPairs_of_sorted : ∀ l, SortedPairs l → sortPairs l = l
  | [], _ => rfl
  | [a], _ => rfl
  | a :: b :: l, h => by
    obtain ⟨ha, hl⟩ := List.pairwise_cons.mp h
    rw [sortPairs, sortPairs_of_sorted (b :: l) hl, insertPair, if_pos (ha b (by simp))]

/-! ### Indicator variables -/

namespace IV

/-- Every variable of the indicator variable has a label. -/
def Covered (v : IV) (x : List Nat) : Prop := ∀ p ∈ v.pairs, p.1 < x.length

theorem loopAnd_spec (x : List Nat) : ∀ ps : List (Nat × Nat), (∀ p ∈ ps, p.1 < x.length) →
    loopAnd x ps = some (decide (∀ p ∈ ps, x[p.1]? = some p.2))
  | [], _ => by simp [loopAnd]
  | p :: ps, h => by
    have hp : p.1 < x.length := h p (by simp)
    rw [loopAnd, List.getElem?_eq_getElem hp]
    simp only
    rw [loopAnd_spec x ps (fun q hq => h q (by simp [hq]))]
    by_cases he : p.2 = x[p.1]
    · rw [if_neg (by simpa using he)]
      simp [List.getElem?_eq_getElem hp, he]
    · rw [if_pos he]
      simp [List.getElem?_eq_getElem hp, Ne.symm he]

theorem loopOr_spec (x : List Nat) : ∀ ps : List (Nat × Nat), (∀ p ∈ ps, p.1 < x.length) →
    loopOr x ps = some (decide (∃ p ∈ ps, x[p.1]? = some p.2))
  | [], _ => by simp [loopOr]
  | p :: ps, h => by
    have hp : p.1 < x.length := h p (by simp)
    rw [loopOr, List.getElem?_eq_getElem hp]
    simp only
    rw [loopOr_spec x ps (fun q hq => h q (by simp [hq]))]
    by_cases he : p.2 = x[p.1]
    · rw [if_pos he]
      simp [List.getElem?_eq_getElem hp, he]
    · rw [if_neg he]
      simp [List.getElem?_eq_getElem hp, Ne.symm he]

theorem loopNot_spec (x : List Nat) : ∀ ps : List (Nat × Nat), (∀ p ∈ ps, p.1 < x.length) →
    loopNot x ps = some (decide (∀ p ∈ ps, x[p.1]? ≠ some p.2))
  | [], _ => by simp [loopNot]
  | p :: ps, h => by
    have hp : p.1 < x.length := h p (by simp)
    rw [loopNot, List.getElem?_eq_getElem hp]
    simp only
    rw [loopNot_spec x ps (fun q hq => h q (by simp [hq]))]
    by_cases he : p.2 = x[p.1]
    · rw [if_pos he]
      simp [List.getElem?_eq_getElem hp, he]
    · rw [if_neg he]
      simp [List.getElem?_eq_getElem hp, Ne.symm he]

theorem eval_spec (v : IV) (x : List Nat) (h : v.Covered x) : v.eval x = some (decide (IsOn v x)) := by
  unfold eval IsOn
  cases v with
  | mk ps op =>
    cases op
    · exact loopAnd_spec x ps h
    · exact loopOr_spec x ps h
    · exact loopNot_spec x ps h

/-! ### Comparison -/

theorem lessLoop_self : ∀ ps : List (Nat × Nat), ps ≠ [] → lessLoop ps ps = false
  | [], h => absurd rfl h
  | p :: ps, _ => by simp [lessLoop]

theorem lessLoop_trans : ∀ ps qs rs : List (Nat × Nat), ps.length = qs.length → qs.length = rs.length → lessLoop ps qs = true →
    lessLoop qs rs = true → lessLoop ps rs = true
  | [], _, _, _, _, _, _ => by simp [lessLoop]
  | p :: ps, [], _, h, _, _, _ => by simp at h
  | p :: ps, q :: qs, [], _, h, _, _ => by simp at h
  | p :: ps, q :: qs, r :: rs, h1, h2, h3, h4 => by
    rw [lessLoop] at h3 h4 ⊢
    split at h3
    · simp at h3
    · split at h3
      · simp at h3
      · split at h4
        · simp at h4
        · split at h4
          · simp at h4
          · rw [if_neg (by omega), if_neg (by omega)]
            exact lessLoop_trans ps qs rs (by simpa using h1) (by simpa using h2) h3 h4

theorem greaterLoop_eq : ∀ ps qs : List (Nat × Nat), greaterLoop ps qs = lessLoop qs ps
  | [], [] => rfl
  | [], _ :: _ => rfl
  | _ :: _, [] => rfl
  | p :: ps, q :: qs => by
    rw [greaterLoop, lessLoop, greaterLoop_eq ps qs]
    split_ifs <;> first | rfl | (exfalso; omega)

theorem greaterEqLoop_eq : ∀ ps qs : List (Nat × Nat), greaterEqLoop ps qs = lessEqLoop qs ps
  | [], [] => rfl
  | [], _ :: _ => rfl
  | _ :: _, [] => rfl
  | p :: ps, q :: qs => by
    rw [greaterEqLoop, lessEqLoop, greaterEqLoop_eq ps qs]
    split_ifs <;> first | rfl | (exfalso; omega)

end IV

/-! ### Constraints -/

section
variable {V : Type} [CommRing V] [LinearOrder V]

namespace Con

/-- As many coefficients as indicator variables, and every variable of them has a label. -/
structure Fits (c : Con V) (x : List Nat) : Prop where
  length : c.vars.length = c.coeffs.length
  covered : ∀ v ∈ c.vars, v.Covered x

omit [LinearOrder V] in
theorem lhsLoop_spec (x : List Nat) : ∀ (vs : List IV) (cs : List V) (r : V), vs.length = cs.length → (∀ v ∈ vs, v.Covered x) →
    lhsLoop x vs cs r = some (r + (List.zipWith (fun v a => a * onValue x v) vs cs).sum)
  | [], cs, r, _, _ => by simp [lhsLoop]
  | v :: vs, [], r, h, _ => by simp at h
  | v :: vs, c :: cs, r, h, hc => by
    rw [lhsLoop, IV.eval_spec v x (hc v (by simp))]
    have ih := fun r => lhsLoop_spec x vs cs r (by simpa using h) (fun w hw => hc w (by simp [hw]))
    by_cases ho : IsOn v x
    · simp only [ho, decide_true, List.getElem?_cons_zero, List.drop_one, List.tail_cons]
      rw [ih]
      simp [onValue, ho, add_assoc]
    · simp only [ho, decide_false, List.drop_one, List.tail_cons]
      rw [ih]
      simp [onValue, ho]

variable [IsStrictOrderedRing V]

theorem weigh_eq (op : COp) (l b : V) : weigh op l b = violation op l b := by
  cases op
  · simp only [weigh, violation]
    split
    · rename_i h; rw [max_eq_left (le_of_lt h)]
    · rename_i h; rw [max_eq_right (not_lt.mp h)]
  · simp only [weigh, violation]
    split
    · rename_i h; rw [abs_of_pos h]
    · split
      · rename_i h; rw [abs_of_neg h]
      · rename_i h h'
        rw [le_antisymm (not_lt.mp h) (not_lt.mp h'), abs_zero]
  · simp only [weigh, violation]
    split
    · rename_i h; rw [max_eq_left (by linarith)]; ring
    · rename_i h; rw [max_eq_right (by linarith [not_lt.mp h])]

theorem eval_spec (c : Con V) (x : List Nat) (h : c.Fits x) : c.eval x = some (violation c.op (lhs c (onValue x)) c.bound) := by
  unfold eval
  rw [lhsLoop_spec x _ _ _ h.length h.covered, Option.map_some, weigh_eq, zero_add]
  rfl

end Con

namespace LCF
variable [IsStrictOrderedRing V]

theorem evalLoop_spec (tol valid invalid : V) (x : List Nat) : ∀ cs : List (Con V), (∀ c ∈ cs, c.Fits x) →
    evalLoop tol valid invalid x cs =
      some (if ∀ c ∈ cs, violation c.op (lhs c (onValue x)) c.bound ≤ tol then valid else invalid)
  | [], _ => by simp [evalLoop]
  | c :: cs, h => by
    rw [evalLoop, Con.eval_spec c x (h c (by simp))]
    simp only
    rw [evalLoop_spec tol valid invalid x cs (fun d hd => h d (by simp [hd]))]
    by_cases hw : violation c.op (lhs c (onValue x)) c.bound > tol
    · rw [if_pos hw, if_neg]
      intro hn
      exact absurd (hn c (by simp)) (not_le.mpr hw)
    · rw [if_neg hw]
      simp [not_lt.mp hw]

theorem challengeLoop_spec (capacity : Nat) (x : List Nat) (tol : V) : ∀ (cs : List (Con V)) (k : Nat) (out : List (Nat × V)),
    (∀ c ∈ cs, c.Fits x) → out.length + cs.length ≤ capacity →
    challengeLoop capacity x tol cs k out = some (out ++ (cs.zipIdx k).filterMap (fun e =>
      if tol < violation e.1.op (lhs e.1 (onValue x)) e.1.bound then some (e.2, violation e.1.op (lhs e.1 (onValue x)) e.1.bound) else none))
  | [], k, out, _, _ => by simp [challengeLoop]
  | c :: cs, k, out, h, hcap => by
    have ih := fun k out => challengeLoop_spec capacity x tol cs k out (fun d hd => h d (by simp [hd]))
    simp only [List.length_cons] at hcap
    rw [challengeLoop, Con.eval_spec c x (h c (by simp))]
    simp only [List.zipIdx_cons]
    by_cases hw : tol < violation c.op (lhs c (onValue x)) c.bound
    · rw [if_pos hw, if_pos (by omega), ih _ _ (by simp only [List.length_append, List.length_singleton]; omega)]
      simp [List.filterMap_cons, hw]
    · rw [if_neg hw, ih _ _ (by omega)]
      simp [List.filterMap_cons, hw]

theorem relaxedWeight_eq (op : COp) (l b tol : V) (ht : 0 ≤ tol) :
    relaxedWeight op l b tol = if tol < violation op l b then some (violation op l b) else none := by
  cases op
  · unfold relaxedWeight
    simp only
    by_cases h : l - b > tol
    · have hv : violation .lessEqual l b = l - b := max_eq_left (by linarith)
      rw [hv, if_pos h]
    · rw [if_neg h, if_neg]
      rw [not_lt]; exact max_le (not_lt.mp h) ht
  · unfold relaxedWeight
    simp only
    by_cases h : l - b > tol
    · have hv : violation .equal l b = l - b := abs_of_pos (by linarith)
      rw [hv, if_pos h, if_pos h]
    · rw [if_neg h]
      by_cases h' : l - b < -tol
      · have hv : violation .equal l b = -(l - b) := abs_of_neg (by linarith)
        rw [hv, if_pos h', if_pos (by linarith)]
      · rw [if_neg h', if_neg]
        rw [not_lt]
        exact abs_le.mpr ⟨not_lt.mp h', not_lt.mp h⟩
  · unfold relaxedWeight
    simp only
    by_cases h : l - b < -tol
    · have hv : violation .greaterEqual l b = -(l - b) := by
        rw [neg_sub]; exact max_eq_left (by linarith)
      rw [hv, if_pos h, if_pos (by linarith)]
    · rw [if_neg h, if_neg]
      rw [not_lt]; exact max_le (by linarith [not_lt.mp h]) ht

omit [LinearOrder V] [IsStrictOrderedRing V] in
theorem relaxedLhs_spec (varList : List IV) (y : IV → V) (rest : List V) : ∀ (vs : List IV) (cs : List V) (r : V),
    vs.length = cs.length → (∀ v ∈ vs, v ∈ varList) →
    relaxedLhs (varList.map y ++ rest) (vs.map (fun v => varList.idxOf v)) cs r =
      some (r + (List.zipWith (fun v a => a * y v) vs cs).sum)
  | [], cs, r, _, _ => by simp [relaxedLhs]
  | v :: vs, [], r, h, _ => by simp at h
  | v :: vs, c :: cs, r, h, hm => by
    have hv : varList.idxOf v < varList.length := List.idxOf_lt_length_of_mem (hm v (by simp))
    have hg : (varList.map y ++ rest)[varList.idxOf v]? = some (y v) := by
      rw [List.getElem?_append_left (by simpa using hv), List.getElem?_map, List.getElem?_eq_getElem hv, List.getElem_idxOf]
      rfl
    simp only [List.map_cons, relaxedLhs, hg, List.getElem?_cons_zero, List.drop_one, List.tail_cons]
    rw [relaxedLhs_spec varList y rest vs cs _ (by simpa using h) (fun w hw => hm w (by simp [hw]))]
    simp [add_assoc, mul_comm]

theorem relaxedLoop_spec (capacity : Nat) (varList : List IV) (y : IV → V) (rest : List V) (tol : V) (ht : 0 ≤ tol) :
    ∀ (cs : List (Con V)) (k : Nat) (out : List (Nat × V)),
    (∀ c ∈ cs, c.vars.length = c.coeffs.length) → (∀ c ∈ cs, ∀ v ∈ c.vars, v ∈ varList) → out.length + cs.length ≤ capacity →
    relaxedLoop capacity (varList.map y ++ rest) tol cs (cs.map (fun c => c.vars.map (fun v => varList.idxOf v))) k out =
      some (out ++ (cs.zipIdx k).filterMap (fun e =>
        if tol < violation e.1.op (lhs e.1 y) e.1.bound then some (e.2, violation e.1.op (lhs e.1 y) e.1.bound) else none))
  | [], k, out, _, _, _ => by simp [relaxedLoop]
  | c :: cs, k, out, h, hm, hcap => by
    have ih := fun k out => relaxedLoop_spec capacity varList y rest tol ht cs k out (fun d hd => h d (by simp [hd]))
      (fun d hd => hm d (by simp [hd]))
    simp only [List.length_cons] at hcap
    simp only [List.map_cons, relaxedLoop]
    rw [relaxedLhs_spec varList y rest _ _ _ (h c (by simp)) (hm c (by simp)), zero_add]
    simp only
    rw [relaxedWeight_eq _ _ _ _ ht]
    simp only [List.zipIdx_cons]
    change (match (if tol < violation c.op (lhs c y) c.bound then some (violation c.op (lhs c y) c.bound) else none) with
      | some weight => if out.length < capacity then _ else none
      | none => _) = _
    by_cases hw : tol < violation c.op (lhs c y) c.bound
    · rw [if_pos hw]
      simp only
      rw [if_pos (by omega), ih _ _ (by simp only [List.length_append, List.length_singleton]; omega)]
      simp [List.filterMap_cons, hw]
    · rw [if_neg hw]
      simp only
      rw [ih _ _ (by omega)]
      simp [List.filterMap_cons, hw]

end LCF

/-! ### The list of indicator variables -/

namespace LCF

theorem collect_mem : ∀ (vs out : List IV) (v : IV), v ∈ collect vs out ↔ v ∈ out ∨ v ∈ vs
  | [], out, v => by simp [collect]
  | w :: vs, out, v => by
    rw [collect, collect_mem vs]
    split
    · rename_i h
      constructor
      · rintro (h' | h')
        · exact Or.inl h'
        · exact Or.inr (by simp [h'])
      · rintro (h' | h')
        · exact Or.inl h'
        · rcases List.mem_cons.mp h' with rfl | h'
          · exact Or.inl h
          · exact Or.inr h'
    · simp [or_assoc]

theorem collect_nodup : ∀ (vs out : List IV), out.Nodup → (collect vs out).Nodup
  | [], out, h => h
  | w :: vs, out, h => by
    rw [collect]
    apply collect_nodup vs
    split
    · exact h
    · rename_i hw
      rw [List.nodup_append]
      refine ⟨h, by simp, ?_⟩
      intro a ha b hb
      rw [List.mem_singleton] at hb
      subst hb
      exact fun e => hw (e ▸ ha)

omit [CommRing V] [LinearOrder V] in
theorem collectAll_mem : ∀ (cs : List (Con V)) (out : List IV) (v : IV), v ∈ collectAll cs out ↔ v ∈ out ∨ ∃ c ∈ cs, v ∈ c.vars
  | [], out, v => by simp [collectAll]
  | c :: cs, out, v => by
    rw [collectAll, collectAll_mem cs, collect_mem]
    simp [or_assoc]

omit [CommRing V] [LinearOrder V] in
theorem collectAll_nodup : ∀ (cs : List (Con V)) (out : List IV), out.Nodup → (collectAll cs out).Nodup
  | [], _, h => h
  | c :: cs, out, h => collectAll_nodup cs _ (collect_nodup c.vars out h)

omit [CommRing V] [LinearOrder V] in
theorem varList_mem {r : IV → IV → Bool} {sort : List IV → Option (List IV)} (hs : IsStdSort r sort) {cs : List (Con V)} {l : List IV}
    (h : sort (collectAll cs []) = some l) (v : IV) : v ∈ l ↔ ∃ c ∈ cs, v ∈ c.vars := by
  rw [(hs.perm _ _ h).mem_iff, collectAll_mem]; simp

/-! ### Reading -/

theorem readMany_spec {α β : Type} {r : List α → Option (β × List α)} {enc : β → List α} :
    ∀ (xs : List β) (rest : List α), (∀ x ∈ xs, ∀ rest, r (enc x ++ rest) = some (x, rest)) →
      readMany r xs.length (xs.flatMap enc ++ rest) = some (xs, rest)
  | [], rest, _ => by simp [readMany]
  | x :: xs, rest, h => by
    simp only [List.length_cons, readMany, List.flatMap_cons, List.append_assoc]
    rw [h x (by simp)]
    simp only
    rw [readMany_spec xs rest (fun y hy => h y (by simp [hy]))]

theorem readEach_spec {α β γ : Type} {r : γ → List α → Option (β × List α)} {enc : β → List α} {key : β → γ} :
    ∀ (xs : List β) (rest : List α), (∀ x ∈ xs, ∀ rest, r (key x) (enc x ++ rest) = some (x, rest)) →
      readEach r (xs.map key) (xs.flatMap enc ++ rest) = some (xs, rest)
  | [], rest, _ => by simp [readEach]
  | x :: xs, rest, h => by
    simp only [List.map_cons, readEach, List.flatMap_cons, List.append_assoc]
    rw [h x (by simp)]
    simp only
    rw [readEach_spec xs rest (fun y hy => h y (by simp [hy]))]

theorem readPairs_spec : ∀ (ps : List (Nat × Nat)) (v : IV) (rest : List Nat), SortedPairs (v.pairs ++ ps) →
    readPairs ps.length v (ps.flatMap (fun p => [p.1, p.2]) ++ rest) = some ({ v with pairs := v.pairs ++ ps }, rest)
  | [], v, rest, _ => by simp [readPairs]
  | p :: ps, v, rest, h => by
    simp only [List.length_cons, List.flatMap_cons, List.cons_append, List.nil_append, readPairs]
    have h' : SortedPairs ((v.pairs ++ [p]) ++ ps) := by simpa using h
    have hs : v.add p.1 p.2 = { v with pairs := v.pairs ++ [p] } := by
      unfold IV.add
      rw [sortPairs_of_sorted _ (List.pairwise_append.mp h').1]
    rw [hs, readPairs_spec ps _ rest h']
    simp

theorem readIV_spec (v : IV) (h : SortedPairs v.pairs) (rest : List Nat) :
    readIV (v.op, v.pairs.length) (v.pairs.flatMap (fun p => [p.1, p.2]) ++ rest) = some (v, rest) := by
  unfold readIV
  rw [readPairs_spec v.pairs IV.empty rest (by simpa [IV.empty] using h)]
  simp [IV.empty, IV.setOp]

theorem readN_spec {α : Type} (l rest : List α) : readN l.length (l ++ rest) = some (l, rest) := readN_append l rest

omit [LinearOrder V] in
theorem assemble_spec : ∀ cs : List (Con V),
    assemble (cs.map (fun c => c.op)) (cs.map (fun c => c.bound)) (cs.map (fun c => c.vars)) (cs.map (fun c => c.coeffs)) = some cs
  | [] => rfl
  | c :: cs => by
    simp only [List.map_cons, assemble]
    rw [assemble_spec cs]
    simp [Con.addAll, Con.empty]

end LCF

/-! ### LabelOrderFunction -/

namespace LabelOrder

omit [LinearOrder V] in
theorem addVars_spec (order : List V) (w : Nat) (negate : Bool) : ∀ (is : List Nat) (c : Con V), (∀ i ∈ is, i < order.length) →
    addVars order w negate is c = some { c with
      vars := c.vars ++ is.map (fun i => IV.ofPair w i .and_),
      coeffs := c.coeffs ++ is.map (fun i => if negate then -order.getD i 0 else order.getD i 0) }
  | [], c, _ => by simp [addVars]
  | i :: is, c, h => by
    have hi : i < order.length := h i (by simp)
    rw [addVars, List.getElem?_eq_getElem hi]
    simp only
    rw [addVars_spec order w negate is _ (fun j hj => h j (by simp [hj]))]
    simp [Con.add, List.getElem?_eq_getElem hi]

omit [LinearOrder V] in
theorem make_eq {n1 n2 : Nat} {order : List V} (valid invalid : V) (h1 : n1 ≤ order.length) (h2 : n2 ≤ order.length) :
    make n1 n2 order valid invalid = some
      { n1 := n1, n2 := n2, size := n1 * n2, order := order, valid := valid, invalid := invalid,
        constraints := [{
          vars := (List.range n1).map (fun i => IV.ofPair 0 i .and_) ++ (List.range n2).map (fun i => IV.ofPair 1 i .and_),
          coeffs := (List.range n1).map (fun i => order.getD i 0) ++ (List.range n2).map (fun i => -order.getD i 0),
          bound := 0, op := .lessEqual }],
        varList := (List.range n1).map (fun i => IV.ofPair 0 i .and_) ++ (List.range n2).map (fun i => IV.ofPair 1 i .and_) } := by
  unfold make
  rw [addVars_spec _ _ _ _ _ (by simpa using fun i hi => Nat.lt_of_lt_of_le hi h1)]
  simp only
  rw [addVars_spec _ _ _ _ _ (by simpa using fun i hi => Nat.lt_of_lt_of_le hi h2)]
  simp [Con.empty]

omit [LinearOrder V] in
theorem zipWith_map_sum (y : IV → V) (f : Nat → IV) (g : Nat → V) (l : List Nat) :
    (List.zipWith (fun v a => a * y v) (l.map f) (l.map g)).sum = (l.map (fun i => g i * y (f i))).sum := by
  rw [List.zipWith_map, List.zipWith_self]

omit [LinearOrder V] in
theorem lhs_eq (n1 n2 : Nat) (order : List V) (y : IV → V) (b : V) (op : COp) :
    lhs { vars := (List.range n1).map (fun i => IV.ofPair 0 i .and_) ++ (List.range n2).map (fun i => IV.ofPair 1 i .and_),
          coeffs := (List.range n1).map (fun i => order.getD i 0) ++ (List.range n2).map (fun i => -order.getD i 0),
          bound := b, op := op } y =
      ((List.range n1).map (fun i => order.getD i 0 * y (IV.ofPair 0 i .and_))).sum -
        ((List.range n2).map (fun i => order.getD i 0 * y (IV.ofPair 1 i .and_))).sum := by
  unfold lhs
  simp only
  rw [List.zipWith_append (by simp), List.sum_append, zipWith_map_sum, zipWith_map_sum, sub_eq_add_neg]
  congr 1
  generalize List.range n2 = l
  induction l with
  | nil => simp
  | cons i l ih => rw [List.map_cons, List.sum_cons, ih, List.map_cons, List.sum_cons]; ring

omit [LinearOrder V] in
theorem sum_on (o : Nat → V) (y : Nat → V) (a n : Nat) (ha : a < n) (hy : ∀ i, y i = if i = a then 1 else 0) :
    ((List.range n).map (fun i => o i * y i)).sum = o a := by
  rw [← List.sum_toFinset _ List.nodup_range, List.toFinset_range]
  simp only [hy, mul_ite, mul_one, mul_zero]
  rw [Finset.sum_ite_eq' (Finset.range n) a o, if_pos (Finset.mem_range.mpr ha)]

omit [CommRing V] [LinearOrder V] in
theorem onValue_ofPair [CommRing V] (x : List Nat) (w a i : Nat) (h : x[w]? = some a) :
    (onValue x (IV.ofPair w i .and_) : V) = if i = a then 1 else 0 := by
  unfold onValue IsOn IV.ofPair
  simp [h, eq_comm]

theorem relaxedSum_spec (order labeling : List V) (offset : Nat) (negate : Bool) (y : Nat → V) : ∀ (is : List Nat) (r : V),
    (∀ i ∈ is, i < order.length) → (∀ i ∈ is, labeling[offset + i]? = some (y i)) →
    relaxedSum order labeling offset negate is r =
      some (if negate then r - (is.map (fun i => order.getD i 0 * y i)).sum else r + (is.map (fun i => order.getD i 0 * y i)).sum)
  | [], r, _, _ => by simp [relaxedSum]
  | i :: is, r, h, h' => by
    have hi : i < order.length := h i (by simp)
    rw [relaxedSum, List.getElem?_eq_getElem hi, h' i (by simp)]
    simp only
    rw [relaxedSum_spec order labeling offset negate y is _ (fun j hj => h j (by simp [hj])) (fun j hj => h' j (by simp [hj]))]
    cases negate
    · simp [List.getElem?_eq_getElem hi, add_assoc]
    · simp [List.getElem?_eq_getElem hi, sub_sub]

end LabelOrder

/-! ### NumLabelsLimitationFunction -/

namespace NumLabels

/-- The variables that have label `i`, each with this label. -/
def pairsOf (shape : List Nat) (i : Nat) (js : List Nat) : List (Nat × Nat) :=
  (js.filter (fun j => decide (i < shape.getD j 0))).map (fun j => (j, i))

theorem pairsOf_sorted (shape : List Nat) (i n : Nat) : SortedPairs (pairsOf shape i (List.range n)) := by
  unfold SortedPairs pairsOf
  rw [List.pairwise_map]
  apply List.Pairwise.filter
  refine List.pairwise_lt_range.imp ?_
  intro a b hab
  rw [pairLe_iff]; exact Or.inl hab

/-- The description of the shape the loops use. -/
structure FillSpec (b : Base) (shape : List Nat) : Prop where
  numVariables : b.numVariables = shape.length
  same : b.same = true → ∀ s ∈ shape, s = b.maxNumLabels
  own : b.same = false → b.shape = shape

theorem addPairs_spec {b : Base} {shape : List Nat} (hb : FillSpec b shape) (i : Nat) (hi : i < b.maxNumLabels) :
    ∀ (js done : List Nat) (v : IV), (∀ j ∈ js, j < shape.length) → v.pairs = pairsOf shape i done →
      SortedPairs (pairsOf shape i (done ++ js)) →
      addPairs b i js v = some { v with pairs := pairsOf shape i (done ++ js) }
  | [], done, v, _, hv, _ => by simp [addPairs, ← hv]
  | j :: js, done, v, hj, hv, hs => by
    have hjl : j < shape.length := hj j (by simp)
    have hs' : SortedPairs (pairsOf shape i ((done ++ [j]) ++ js)) := by simpa using hs
    have hs1 : SortedPairs (pairsOf shape i (done ++ [j])) := by
      have : pairsOf shape i ((done ++ [j]) ++ js) = pairsOf shape i (done ++ [j]) ++ pairsOf shape i js := by
        unfold pairsOf; rw [List.filter_append, List.map_append]
      rw [this] at hs'
      exact (List.pairwise_append.mp hs').1
    have hadd : i < shape[j] → v.add j i = { v with pairs := pairsOf shape i (done ++ [j]) } := by
      intro hlt
      have he : pairsOf shape i (done ++ [j]) = v.pairs ++ [(j, i)] := by
        rw [hv]; simp [pairsOf, List.getElem?_eq_getElem hjl, hlt]
      unfold IV.add
      rw [← he, sortPairs_of_sorted _ hs1]
    have hskip : ¬ i < shape[j] → v.pairs = pairsOf shape i (done ++ [j]) := by
      intro hlt
      rw [hv]; simp [pairsOf, List.getElem?_eq_getElem hjl, hlt]
    have ih := fun v hv => addPairs_spec hb i hi js (done ++ [j]) v (fun k hk => hj k (by simp [hk])) hv hs'
    rw [addPairs]
    cases hsame : b.same with
    | true =>
      rw [if_pos rfl]
      have hlt : i < shape[j] := by rw [hb.same hsame _ (List.getElem_mem hjl)]; exact hi
      rw [hadd hlt, ih _ rfl]
      simp
    | false =>
      rw [if_neg (by simp), hb.own hsame, List.getElem?_eq_getElem hjl]
      simp only
      by_cases hlt : i < shape[j]
      · rw [if_pos hlt, hadd hlt, ih _ rfl]
        simp
      · rw [if_neg hlt, ih _ (hskip hlt)]
        simp

theorem fill_spec {b : Base} {shape : List Nat} (hb : FillSpec b shape) : ∀ is : List Nat, (∀ i ∈ is, i < b.maxNumLabels) →
    fill b is = some (is.map (fun i => ⟨pairsOf shape i (List.range shape.length), .or_⟩))
  | [], _ => by simp [fill]
  | i :: is, h => by
    rw [fill, hb.numVariables, addPairs_spec hb i (h i (by simp)) _ [] _ (by simp) (by simp [pairsOf, IV.setOp, IV.empty])
      (by simpa using pairsOf_sorted shape i shape.length)]
    simp only
    rw [fill_spec hb is (fun j hj => h j (by simp [hj]))]
    simp [IV.setOp, IV.empty]

omit [LinearOrder V] in
theorem constraint_fold (vars : List IV) : ∀ c : Con V, vars.foldl (fun c v => c.add v 1) c =
    { c with vars := c.vars ++ vars, coeffs := c.coeffs ++ List.replicate vars.length 1 } := by
  induction vars with
  | nil => intro c; simp
  | cons v vars ih =>
    intro c
    rw [List.foldl_cons, ih]
    simp [Con.add, List.replicate_succ]

omit [LinearOrder V] in
theorem constraint_eq (maxUsed : Nat) (vars : List IV) :
    (constraint maxUsed vars : Con V) = ⟨vars, List.replicate vars.length 1, (maxUsed : V), .lessEqual⟩ := by
  unfold constraint
  rw [constraint_fold]
  simp [Con.empty]

omit [LinearOrder V] in
theorem lhs_ones (vars : List IV) (b : V) (op : COp) (y : IV → V) :
    lhs ⟨vars, List.replicate vars.length 1, b, op⟩ y = (vars.map y).sum := by
  unfold lhs
  simp only
  induction vars with
  | nil => simp
  | cons v vars ih => simp [List.replicate_succ, ih]

theorem isOn_iff (shape x : List Nat) (hx : InShape shape x) (i : Nat) :
    IsOn ⟨pairsOf shape i (List.range shape.length), .or_⟩ x ↔ i ∈ x := by
  have hlen := inShape_length hx
  have hlt : ∀ {shape x : List Nat} (_ : InShape shape x) (j : Nat) (l : Nat), x[j]? = some l → l < shape.getD j 0 := by
    intro shape
    induction shape with
    | nil =>
      intro x hx j l hj
      cases x with
      | nil => simp at hj
      | cons a x => simp [InShape] at hx
    | cons s shape ih =>
      intro x hx j l hj
      cases x with
      | nil => simp at hj
      | cons a x =>
        cases j with
        | zero =>
          simp only [List.getElem?_cons_zero, Option.some.injEq] at hj
          subst hj
          simpa using hx.1
        | succ j =>
          simp only [List.getElem?_cons_succ] at hj
          simpa using ih hx.2 j l hj
  unfold IsOn pairsOf
  simp only [List.mem_map, List.mem_filter, List.mem_range, decide_eq_true_eq]
  constructor
  · rintro ⟨p, ⟨j, ⟨_, _⟩, rfl⟩, h⟩
    exact List.mem_of_getElem? h
  · intro h
    obtain ⟨j, hj⟩ := List.getElem?_of_mem h
    refine ⟨(j, i), ⟨j, ⟨?_, hlt hx j i hj⟩, rfl⟩, hj⟩
    have := (List.getElem?_eq_some_iff.mp hj).1
    omega

theorem sum_on (shape x : List Nat) (hx : InShape shape x) (m : Nat) (hm : ∀ l ∈ x, l < m) :
    (((List.range m).map (fun i => (⟨pairsOf shape i (List.range shape.length), .or_⟩ : IV))).map (onValue x)).sum =
      ((x.toFinset.card : Nat) : V) := by
  rw [List.map_map, ← List.sum_toFinset _ List.nodup_range, List.toFinset_range]
  have : ∀ i ∈ Finset.range m, ((onValue x ∘ fun i => (⟨pairsOf shape i (List.range shape.length), .or_⟩ : IV)) i : V) =
      if i ∈ x.toFinset then 1 else 0 := by
    intro i _
    simp only [Function.comp, onValue, isOn_iff shape x hx i, List.mem_toFinset]
  rw [Finset.sum_congr rfl this, Finset.sum_ite_mem]
  have hi : Finset.range m ∩ x.toFinset = x.toFinset := by
    apply Finset.inter_eq_right.mpr
    intro l hl
    exact Finset.mem_range.mpr (hm l (List.mem_toFinset.mp hl))
  rw [hi]
  simp

theorem loop_spec (m maxUsed : Nat) (valid invalid : V) (rest : List Nat) : ∀ (x : List Nat) (used : List Bool) (S : Finset Nat),
    (∀ l ∈ x, l < m) → (∀ l : Nat, l < m → used[l]? = some (decide (l ∈ S))) → S.card ≤ maxUsed →
    loop maxUsed valid invalid x.length (x ++ rest) used S.card = some (if (x.toFinset ∪ S).card ≤ maxUsed then valid else invalid)
  | [], used, S, _, _, hc => by simp [loop, hc]
  | s :: x, used, S, hx, hu, hc => by
    have hs : s < m := hx s (by simp)
    simp only [List.length_cons, List.cons_append, loop, hu s hs]
    by_cases hm : s ∈ S
    · simp only [hm, decide_true]
      rw [loop_spec m maxUsed valid invalid rest x used S (fun l hl => hx l (by simp [hl])) hu hc]
      have : (s :: x).toFinset ∪ S = x.toFinset ∪ S := by
        ext l; simp only [List.toFinset_cons, Finset.mem_union, Finset.mem_insert]
        constructor
        · rintro ((rfl | h) | h)
          · exact Or.inr hm
          · exact Or.inl h
          · exact Or.inr h
        · rintro (h | h)
          · exact Or.inl (Or.inr h)
          · exact Or.inr h
      rw [this]
    · simp only [hm, decide_false]
      have hcard : (insert s S).card = S.card + 1 := Finset.card_insert_of_notMem hm
      have hun : (s :: x).toFinset ∪ S = x.toFinset ∪ insert s S := by
        ext l; simp only [List.toFinset_cons, Finset.mem_union, Finset.mem_insert]; tauto
      by_cases hgt : S.card + 1 > maxUsed
      · rw [if_pos hgt, if_neg]
        rw [hun]
        have := Finset.card_le_card (Finset.subset_union_right (s₁ := x.toFinset) (s₂ := insert s S))
        omega
      · rw [if_neg hgt, ← hcard, loop_spec m maxUsed valid invalid rest x _ (insert s S) (fun l hl => hx l (by simp [hl])) ?_ (by omega), hun]
        intro l hl
        rw [List.getElem?_set]
        by_cases hls : s = l
        · subst hls
          have : s < used.length := by
            have := hu s hs
            exact (List.getElem?_eq_some_iff.mp this).1
          simp [this]
        · rw [if_neg hls, hu l hl]
          simp [Finset.mem_insert, Ne.symm hls]

theorem countLoop_spec (m : Nat) (rest : List Nat) : ∀ (x : List Nat) (used : List Bool) (S : Finset Nat),
    (∀ l ∈ x, l < m) → (∀ l : Nat, l < m → used[l]? = some (decide (l ∈ S))) → S ⊆ Finset.range m →
    countLoop m x.length (x ++ rest) used S.card = some (x.toFinset ∪ S).card
  | [], used, S, _, _, _ => by simp [countLoop]
  | s :: x, used, S, hx, hu, hS => by
    have hs : s < m := hx s (by simp)
    simp only [List.length_cons, List.cons_append, countLoop, hu s hs]
    by_cases hm : s ∈ S
    · simp only [hm, decide_true]
      rw [countLoop_spec m rest x used S (fun l hl => hx l (by simp [hl])) hu hS]
      have : (s :: x).toFinset ∪ S = x.toFinset ∪ S := by
        ext l; simp only [List.toFinset_cons, Finset.mem_union, Finset.mem_insert]
        constructor
        · rintro ((rfl | h) | h)
          · exact Or.inr hm
          · exact Or.inl h
          · exact Or.inr h
        · rintro (h | h)
          · exact Or.inl (Or.inr h)
          · exact Or.inr h
      rw [this]
    · simp only [hm, decide_false]
      have hcard : (insert s S).card = S.card + 1 := Finset.card_insert_of_notMem hm
      have hun : (s :: x).toFinset ∪ S = x.toFinset ∪ insert s S := by
        ext l; simp only [List.toFinset_cons, Finset.mem_union, Finset.mem_insert]; tauto
      have hsub : insert s S ⊆ Finset.range m := by
        intro l hl
        rcases Finset.mem_insert.mp hl with rfl | hl
        · exact Finset.mem_range.mpr hs
        · exact hS hl
      by_cases hall : S.card + 1 = m
      · rw [if_pos hall, hun]
        have hfull : insert s S = Finset.range m := Finset.eq_of_subset_of_card_le hsub (by rw [Finset.card_range]; omega)
        have : x.toFinset ∪ insert s S = insert s S := by
          apply Finset.union_eq_right.mpr
          rw [hfull]
          intro l hl
          exact Finset.mem_range.mpr (hx l (by simp [List.mem_toFinset.mp hl]))
        rw [this, hcard]
      · rw [if_neg hall, ← hcard, countLoop_spec m rest x _ (insert s S) (fun l hl => hx l (by simp [hl])) ?_ hsub, hun]
        intro l hl
        rw [List.getElem?_set]
        by_cases hls : s = l
        · subst hls
          have : s < used.length := by
            have := hu s hs
            exact (List.getElem?_eq_some_iff.mp this).1
          simp [this]
        · rw [if_neg hls, hu l hl]
          simp [Finset.mem_insert, Ne.symm hls]

theorem relaxedSum_spec (labeling : List V) (y : Nat → V) : ∀ (is : List Nat) (r : V), (∀ i ∈ is, labeling[i]? = some (y i)) →
    relaxedSum labeling is r = some (r + (is.map y).sum)
  | [], r, _ => by simp [relaxedSum]
  | i :: is, r, h => by
    rw [relaxedSum, h i (by simp)]
    simp only
    rw [relaxedSum_spec labeling y is _ (fun j hj => h j (by simp [hj]))]
    simp [add_assoc]

end NumLabels
end
end OpenGM.LinCon
