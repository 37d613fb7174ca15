import Verif.Lemmas.LinearConstraint
import Verif.Props.SoftConstraint
import Mathlib.Algebra.Order.Ring.Int
/-
C80: indicator variables, linear constraints and the functions that are given by them.
-/
namespace OpenGM.LinCon
open Spec Learnable SoftConstraint

/-! ### Indicator variables -/

/-- The indicator variables a program can make, with the pairs it has entered and the operator it has set. -/
inductive IV.Made : IV → List (Nat × Nat) → LogOp → Prop
  | empty : Made IV.empty [] .and_
  | ofPair (v l : Nat) (op : LogOp) : Made (IV.ofPair v l op) [(v, l)] op
  | ofPairs (ps : List (Nat × Nat)) (op : LogOp) : Made (IV.ofPairs ps op) ps op
  | add {v : IV} {ps : List (Nat × Nat)} {op : LogOp} (h : Made v ps op) (i l : Nat) : Made (v.add i l) (ps ++ [(i, l)]) op
  | addAll {v : IV} {ps : List (Nat × Nat)} {op : LogOp} (h : Made v ps op) (qs : List (Nat × Nat)) : Made (v.addAll qs) (ps ++ qs) op
  | setOp {v : IV} {ps : List (Nat × Nat)} {op : LogOp} (h : Made v ps op) (op' : LogOp) : Made (v.setOp op') ps op'

theorem IV.Made.spec_op {v : IV} {ps : List (Nat × Nat)} {op : LogOp} (h : v.Made ps op) : v.op = op := by
  induction h with
  | empty => rfl
  | ofPair v l op => rfl
  | ofPairs ps op => rfl
  | add _ i l ih => exact ih
  | addAll _ qs ih => exact ih
  | setOp _ op ih => rfl

theorem IV.Made.spec {v : IV} {ps : List (Nat × Nat)} {op : LogOp} (h : v.Made ps op) : v.pairs.Perm ps ∧ SortedPairs v.pairs := by
  induction h with
  | empty => exact ⟨List.Perm.refl _, List.Pairwise.nil⟩
  | ofPair v l op => exact ⟨List.Perm.refl _, by simp [IV.ofPair]⟩
  | ofPairs ps op => exact ⟨sortPairs_perm ps, sortPairs_sorted ps⟩
  | add _ i l ih => exact ⟨(sortPairs_perm _).trans (ih.1.append_right _), sortPairs_sorted _⟩
  | addAll _ qs ih => exact ⟨(sortPairs_perm _).trans (ih.1.append_right _), sortPairs_sorted _⟩
  | setOp _ op ih => exact ih

/-- C80: an indicator variable holds the pairs that were entered, in increasing order, whatever the order in which they were entered, and its value for a
labeling is true if and only if all (`And`), at least one (`Or`), none (`Not`) of the variables have the given label. -/
theorem C80_indicator {v : IV} {ps : List (Nat × Nat)} {op : LogOp} (h : v.Made ps op) (x : List Nat) (hx : ∀ p ∈ ps, p.1 < x.length) :
    v.pairs.Perm ps ∧ v.pairs.Pairwise (fun a b => a.1 < b.1 ∨ (a.1 = b.1 ∧ a.2 ≤ b.2)) ∧
      ∃ b, v.eval x = some b ∧ (b = true ↔ match (generalizing := false) op with
        | .and_ => ∀ p ∈ ps, x[p.1]? = some p.2
        | .or_ => ∃ p ∈ ps, x[p.1]? = some p.2
        | .not_ => ¬ ∃ p ∈ ps, x[p.1]? = some p.2) := by
  obtain ⟨hp, hs⟩ := h.spec
  obtain rfl := h.spec_op
  refine ⟨hp, hs.imp (fun h => (pairLe_iff _ _).mp h), _, IV.eval_spec v x (fun p hq => hx p (hp.mem_iff.mp hq)), ?_⟩
  rw [decide_eq_true_iff]
  unfold IsOn
  cases v with
  | mk pairs op =>
    cases op
    · exact forall_congr' (fun p => by rw [hp.mem_iff])
    · exact exists_congr (fun p => by rw [hp.mem_iff])
    · simp only [not_exists, not_and]
      exact forall_congr' (fun p => by rw [hp.mem_iff])

example : ((IV.ofPairs [(2, 1), (0, 3)] .and_).add 1 0).pairs = [(0, 3), (1, 0), (2, 1)] ∧
    ((IV.ofPairs [(2, 1), (0, 3)] .and_).add 1 0).eval [3, 0, 1] = some true := by decide

/-- C80: two indicator variables that were given the same pairs in a different order, and the same operator, are equal. -/
theorem C80_indicator_order {v w : IV} {ps qs : List (Nat × Nat)} {op : LogOp} (hv : v.Made ps op) (hw : w.Made qs op) (h : ps.Perm qs) : v = w := by
  have ho : v.op = w.op := hv.spec_op.trans hw.spec_op.symm
  obtain ⟨hp, hs⟩ := hv.spec
  obtain ⟨hp', hs'⟩ := hw.spec
  have : v.pairs = w.pairs := by
    refine List.Perm.eq_of_pairwise ?_ hs hs' ((hp.trans h).trans hp'.symm)
    intro a b _ _ h1 h2
    rw [pairLe_iff] at h1 h2
    ext <;> omega
  cases v; cases w
  simp_all

example : IV.ofPairs [(2, 1), (0, 3)] .or_ = ((IV.ofPair 0 3 .and_).add 2 1).setOp .or_ := by decide

/-- C80, comparison: `operator<` is irreflexive and transitive; `a > b` is `b < a` and `a >= b` is `b <= a`; on indicator variables with at most one pair `<` is
a strict total order and `a <= b` means `a < b` or `a == b`. Missing: the last two do not hold for two pairs (`C80_violated_order`, `C80_violated_lessEqual`). -/
theorem C80_compare_partial :
    (∀ a : IV, a.less a = false) ∧ (∀ a b c : IV, a.less b = true → b.less c = true → a.less c = true) ∧
      (∀ a b : IV, a.greater b = b.less a) ∧ (∀ a b : IV, a.greaterEq b = b.lessEq a) ∧
      (∀ a b : IV, a.pairs.length ≤ 1 → b.pairs.length ≤ 1 → (a.less b = true ∨ a = b ∨ b.less a = true) ∧
        (a.lessEq b = true ↔ a.less b = true ∨ a = b)) := by
  refine ⟨?_, ?_, ?_, ?_, ?_⟩
  · intro a
    unfold IV.less
    rw [if_neg (by omega), if_neg (by omega), if_neg (by omega), if_pos rfl]
    split
    · rfl
    · rename_i h
      exact IV.lessLoop_self _ (by intro e; simp [e] at h)
  · intro a b c hab hbc
    unfold IV.less at *
    split_ifs at hab hbc ⊢ <;> first
      | rfl
      | (exfalso; omega)
      | exact IV.lessLoop_trans _ _ _ (by omega) (by omega) hab hbc
  · intro a b
    unfold IV.greater IV.less
    rw [IV.greaterLoop_eq]
    split_ifs <;> first | rfl | (exfalso; omega)
  · intro a b
    unfold IV.greaterEq IV.lessEq
    rw [IV.greaterEqLoop_eq]
    split_ifs <;> first | rfl | (exfalso; omega)
  · intro a b ha hb
    obtain ⟨pa, oa⟩ := a
    obtain ⟨pb, ob⟩ := b
    match pa, pb, ha, hb with
    | [], [], _, _ => cases oa <;> cases ob <;> simp [IV.less, IV.lessEq, LogOp.toNat, IV.lessEqLoop]
    | [], [q], _, _ => cases oa <;> cases ob <;> simp [IV.less, IV.lessEq, LogOp.toNat]
    | [p], [], _, _ => cases oa <;> cases ob <;> simp [IV.less, IV.lessEq, LogOp.toNat]
    | [p], [q], _, _ =>
      obtain ⟨p1, p2⟩ := p
      obtain ⟨q1, q2⟩ := q
      cases oa <;> cases ob <;>
        simp only [IV.less, IV.lessEq, LogOp.toNat, IV.lessLoop, IV.lessEqLoop, IV.mk.injEq, List.cons.injEq, Prod.mk.injEq, and_true,
          List.length_singleton, lt_irrefl, gt_iff_lt, if_true, if_false, one_ne_zero, reduceCtorEq, and_false, or_false, or_true,
          Nat.lt_irrefl, zero_lt_one, Nat.one_lt_ofNat, zero_lt_two, Nat.ofNat_pos, not_lt_zero, Nat.not_ofNat_lt_one, true_or,
          and_self, false_or, Bool.false_eq_true] <;>
        (split_ifs <;> simp <;> omega)

example : (IV.ofPair 0 1 .and_).less (IV.ofPair 1 0 .and_) = true ∧ (IV.ofPair 1 0 .and_).less (IV.ofPair 1 2 .and_) = true := by decide

/-- C80: the comparison `operator<` is not a strict weak ordering: `a` and `c` are equivalent, `c` and `b` are equivalent, but `a < b`. The constructor of
LinearConstraintFunction sorts the indicator variables of its constraints with `std::sort` and this comparison, which is undefined for these three. -/
theorem C80_violated_order :
    let a := IV.ofPairs [(0, 0), (1, 0)] .and_
    let b := IV.ofPairs [(0, 1), (1, 1)] .and_
    let c := IV.ofPairs [(0, 0), (1, 1)] .and_
    (a.less c = false ∧ c.less a = false) ∧ (c.less b = false ∧ b.less c = false) ∧ a.less b = true ∧
      ¬ StrictWeakOn IV.less (LCF.collectAll [({ vars := [a, b, c], coeffs := [1, 1, 1], bound := 1, op := .lessEqual } : Con Int)] []) := by
  refine ⟨by decide, by decide, by decide, ?_⟩
  intro h
  have := h.2.2 (IV.ofPairs [(0, 0), (1, 0)] .and_) (by decide) (IV.ofPairs [(0, 0), (1, 1)] .and_) (by decide)
    (IV.ofPairs [(0, 1), (1, 1)] .and_) (by decide) (by decide) (by decide) (by decide) (by decide)
  exact absurd this.1 (by decide)

/-- C80: `a <= c` although neither `a < c` nor `a == c`, for two indicator variables with two pairs. -/
theorem C80_violated_lessEqual :
    let a := IV.ofPairs [(0, 0), (1, 0)] .and_
    let c := IV.ofPairs [(0, 0), (1, 1)] .and_
    a.lessEq c = true ∧ a.less c = false ∧ a ≠ c := by decide

/-! ### Linear constraints -/

section
variable {V : Type} [CommRing V] [LinearOrder V] [IsStrictOrderedRing V]

/-- C80: the value of a linear constraint for a labeling is the amount by which the sum of the coefficients of the indicator variables that are on misses the
bound; it is never negative, and zero if and only if the constraint holds. -/
theorem C80_constraint (c : Con V) (x : List Nat) (hl : c.vars.length = c.coeffs.length)
    (hx : ∀ v ∈ c.vars, ∀ p ∈ v.pairs, p.1 < x.length) :
    c.eval x = some (violation c.op (lhs c (onValue x)) c.bound) ∧ 0 ≤ violation c.op (lhs c (onValue x)) c.bound ∧
      (violation c.op (lhs c (onValue x)) c.bound = 0 ↔ Holds c.op (lhs c (onValue x)) c.bound) := by
  refine ⟨Con.eval_spec c x ⟨hl, hx⟩, ?_, ?_⟩
  · unfold violation
    split
    · exact le_max_right _ _
    · exact abs_nonneg _
    · exact le_max_right _ _
  · unfold violation Holds
    split
    · rw [max_eq_right_iff, sub_nonpos]
    · rw [abs_eq_zero, sub_eq_zero]
    · rw [max_eq_right_iff, sub_nonpos]

example : (⟨[IV.ofPair 0 1 .and_, IV.ofPairs [(0, 0), (1, 2)] .or_], [3, -1], 1, .equal⟩ : Con Int).eval [1, 2] = some 1 := by decide

/-! ### LinearConstraintFunction -/

/-- C80: the constructor is defined if no indicator variable has more than one pair, or, in general, if the comparison is a strict weak ordering on the
indicator variables; then the list of indicator variables has every variable of every constraint exactly once, in the order of the comparison. -/
theorem C80_function_variables {sort : List IV → Option (List IV)} (hs : IsStdSort IV.less sort) (shape : List Nat) (cs : List (Con V)) (valid invalid : V)
    (h : (∀ c ∈ cs, ∀ v ∈ c.vars, v.pairs.length ≤ 1) ∨ StrictWeakOn IV.less (LCF.collectAll cs [])) :
    ∃ f, LCF.make sort shape cs valid invalid = some f ∧ f.shape = shape ∧ f.constraints = cs ∧ f.varList.Nodup ∧
      (∀ v, v ∈ f.varList ↔ ∃ c ∈ cs, v ∈ c.vars) ∧ f.varList.Pairwise (fun a b => b.less a = false) := by
  have hw : StrictWeakOn IV.less (LCF.collectAll cs []) := by
    rcases h with h | h
    · obtain ⟨hi, ht, -, -, htot⟩ := C80_compare_partial
      have hp : ∀ v ∈ LCF.collectAll cs [], v.pairs.length ≤ 1 := by
        intro v hv
        rw [LCF.collectAll_mem] at hv
        rcases hv with hv | ⟨c, hc, hv⟩
        · simp at hv
        · exact h c hc v hv
      refine ⟨fun a _ => hi a, fun a _ b _ c _ => ht a b c, ?_⟩
      intro a ha b hb c hc h1 h2 h3 h4
      have hab : a = b := by
        rcases (htot a b (hp a ha) (hp b hb)).1 with h | h | h
        · rw [h1] at h; simp at h
        · exact h
        · rw [h2] at h; simp at h
      subst hab
      exact ⟨h3, h4⟩
    · exact h
  obtain ⟨l, hl⟩ := hs.defined _ hw
  refine ⟨_, by unfold LCF.make; rw [hl]; rfl, rfl, rfl, ?_, LCF.varList_mem hs hl, hs.sorted _ _ hw hl⟩
  exact (hs.perm _ _ hl).nodup_iff.mpr (LCF.collectAll_nodup cs [] List.nodup_nil)

/-- C80: the function has the value for valid labelings if and only if every constraint is missed by at most the tolerance of the library. -/
theorem C80_function (tol : V) (sort : List IV → Option (List IV)) (shape : List Nat) (cs : List (Con V)) (valid invalid : V) (f : LCF V)
    (hf : LCF.make sort shape cs valid invalid = some f) (x : List Nat)
    (hc : ∀ c ∈ cs, c.vars.length = c.coeffs.length ∧ ∀ v ∈ c.vars, ∀ p ∈ v.pairs, p.1 < x.length) :
    f.eval tol x = some (if ∀ c ∈ cs, violation c.op (lhs c (onValue x)) c.bound ≤ tol then valid else invalid) := by
  unfold LCF.make at hf
  rw [Option.map_eq_some_iff] at hf
  obtain ⟨l, -, rfl⟩ := hf
  exact LCF.evalLoop_spec tol valid invalid x cs (fun c h => ⟨(hc c h).1, (hc c h).2⟩)

/-- C80: `challenge` reports exactly the constraints the labeling misses by more than the tolerance, with the amounts, in order. -/
theorem C80_challenge (sort : List IV → Option (List IV)) (shape : List Nat) (cs : List (Con V)) (valid invalid : V) (f : LCF V)
    (hf : LCF.make sort shape cs valid invalid = some f) (x : List Nat)
    (hc : ∀ c ∈ cs, c.vars.length = c.coeffs.length ∧ ∀ v ∈ c.vars, ∀ p ∈ v.pairs, p.1 < x.length) (tol : V) :
    f.challenge x tol = some (violated cs (onValue x) tol) := by
  unfold LCF.make at hf
  rw [Option.map_eq_some_iff] at hf
  obtain ⟨l, -, rfl⟩ := hf
  unfold LCF.challenge
  simp only
  rw [LCF.challengeLoop_spec _ _ _ _ _ _ (fun c h => ⟨(hc c h).1, (hc c h).2⟩) (by simp)]
  rfl

/-- C80: `challengeRelaxed` reports exactly the constraints that values `y` of the indicator variables, given in the order of the list of indicator variables,
miss by more than the tolerance. -/
theorem C80_challengeRelaxed {sort : List IV → Option (List IV)} (hs : IsStdSort IV.less sort) (shape : List Nat) (cs : List (Con V)) (valid invalid : V)
    (f : LCF V) (hf : LCF.make sort shape cs valid invalid = some f) (hc : ∀ c ∈ cs, c.vars.length = c.coeffs.length) (y : IV → V)
    (rest : List V) (tol : V) (ht : 0 ≤ tol) :
    f.challengeRelaxed (f.varList.map y ++ rest) tol = some (violated cs y tol) := by
  unfold LCF.make at hf
  rw [Option.map_eq_some_iff] at hf
  obtain ⟨l, hl, rfl⟩ := hf
  unfold LCF.challengeRelaxed
  simp only
  rw [LCF.relaxedLoop_spec _ l y rest tol ht cs 0 [] hc (fun c h v hv => (LCF.varList_mem hs hl v).mpr ⟨c, h, hv⟩) (by simp)]
  rfl

/-- C80: for the values of the indicator variables that belong to a labeling, `challengeRelaxed` and `challenge` report the same. -/
theorem C80_challenge_agree {sort : List IV → Option (List IV)} (hs : IsStdSort IV.less sort) (shape : List Nat) (cs : List (Con V)) (valid invalid : V)
    (f : LCF V) (hf : LCF.make sort shape cs valid invalid = some f) (x : List Nat)
    (hc : ∀ c ∈ cs, c.vars.length = c.coeffs.length ∧ ∀ v ∈ c.vars, ∀ p ∈ v.pairs, p.1 < x.length) (tol : V) (ht : 0 ≤ tol) :
    f.challengeRelaxed (f.varList.map (onValue x)) tol = f.challenge x tol := by
  have h := C80_challengeRelaxed hs shape cs valid invalid f hf (fun c h => (hc c h).1) (onValue x) [] tol ht
  rw [List.append_nil] at h
  rw [h, C80_challenge sort shape cs valid invalid f hf x hc]

omit [IsStrictOrderedRing V] in
/-- C80: the two numbers `min()` and `max()` enclose every value. -/
theorem C80_minmax_partial (valid invalid : V) :
    (LCF.min_ valid invalid ≤ valid ∧ LCF.min_ valid invalid ≤ invalid) ∧ valid ≤ LCF.max_ valid invalid ∧ invalid ≤ LCF.max_ valid invalid := by
  unfold LCF.min_ LCF.max_
  refine ⟨?_, ?_⟩ <;> split <;> rename_i h <;> first | exact ⟨le_refl _, le_of_lt h⟩ | exact ⟨not_lt.mp h, le_refl _⟩

omit [LinearOrder V] [IsStrictOrderedRing V] in
theorem LCF.deserialize_aux (sort : List IV → Option (List IV)) (shape : List Nat) (cs : List (Con V)) (valid invalid : V) (f : LCF V)
    (hf : LCF.make sort shape cs valid invalid = some f)
    (hc : ∀ c ∈ cs, c.vars.length = c.coeffs.length ∧ ∀ v ∈ c.vars, SortedPairs v.pairs) (ri : List Nat) (rv : List V) :
    LCF.deserialize sort (f.serialize.1 ++ ri) (f.serialize.2 ++ rv) = some f := by
  have hf' := hf
  unfold LCF.make at hf
  rw [Option.map_eq_some_iff] at hf
  obtain ⟨l, -, rfl⟩ := hf
  have h1 : ∀ rest, LCF.readMany LCF.readCOp cs.length (cs.map (fun c => c.op.toNat) ++ rest) = some (cs.map (fun c => c.op), rest) := by
    intro rest
    have h := LCF.readMany_spec (r := LCF.readCOp) (enc := fun op => [op.toNat]) (cs.map (fun c => c.op)) rest
      (by intro op _ rest; cases op <;> rfl)
    rw [List.length_map, List.flatMap_map] at h
    rw [List.map_eq_flatMap]
    exact h
  have h2 : ∀ rest, readN cs.length (cs.map (fun c => c.vars.length) ++ rest) = some (cs.map (fun c => c.vars.length), rest) := by
    intro rest
    have h := LCF.readN_spec (cs.map (fun c => c.vars.length)) rest
    rwa [List.length_map] at h
  have h3 : ∀ rest, LCF.readEach (LCF.readMany LCF.readHead) (cs.map (fun c => c.vars.length))
      (cs.flatMap (fun c => c.vars.flatMap (fun v => [v.op.toNat, v.pairs.length])) ++ rest) =
      some (cs.map (fun c => c.vars.map (fun v => (v.op, v.pairs.length))), rest) := by
    intro rest
    have h := LCF.readEach_spec (r := LCF.readMany LCF.readHead) (key := fun hs : List (LogOp × Nat) => hs.length)
      (enc := fun hs => hs.flatMap (fun h => [h.1.toNat, h.2])) (cs.map (fun c => c.vars.map (fun v => (v.op, v.pairs.length)))) rest
      (by
        intro hs _ rest
        exact LCF.readMany_spec hs rest (by rintro ⟨op, n⟩ _ rest; cases op <;> rfl))
    rw [List.map_map, List.flatMap_map] at h
    simpa [Function.comp_def, List.flatMap_map] using h
  have h4 : ∀ rest, LCF.readEach (LCF.readEach LCF.readIV) (cs.map (fun c => c.vars.map (fun v => (v.op, v.pairs.length))))
      (cs.flatMap (fun c => c.vars.flatMap (fun v => v.pairs.flatMap (fun p => [p.1, p.2]))) ++ rest) = some (cs.map (fun c => c.vars), rest) := by
    intro rest
    have h := LCF.readEach_spec (r := LCF.readEach LCF.readIV) (key := fun vs : List IV => vs.map (fun v => (v.op, v.pairs.length)))
      (enc := fun vs => vs.flatMap (fun v => v.pairs.flatMap (fun p => [p.1, p.2]))) (cs.map (fun c => c.vars)) rest
      (by
        intro vs hvs rest
        obtain ⟨c, hcc, rfl⟩ := List.mem_map.mp hvs
        exact LCF.readEach_spec c.vars rest (fun v hv rest => LCF.readIV_spec v ((hc c hcc).2 v hv) rest))
    rw [List.map_map, List.flatMap_map] at h
    exact h
  have h5 : ∀ rest, readN cs.length (cs.map (fun c => c.bound) ++ rest) = some (cs.map (fun c => c.bound), rest) := by
    intro rest
    have h := LCF.readN_spec (cs.map (fun c => c.bound)) rest
    rwa [List.length_map] at h
  have h6 : ∀ rest, LCF.readEach readN (cs.map (fun c => c.vars.length)) (cs.flatMap (fun c => c.coeffs) ++ rest) =
      some (cs.map (fun c => c.coeffs), rest) := by
    intro rest
    have h := LCF.readEach_spec (r := readN) (key := fun l : List V => l.length) (enc := fun l => l) (cs.map (fun c => c.coeffs)) rest
      (fun l _ rest => LCF.readN_spec l rest)
    rw [List.map_map, List.flatMap_map] at h
    have he : cs.map (fun c => c.vars.length) = cs.map ((fun l : List V => l.length) ∘ fun c => c.coeffs) :=
      List.map_congr_left (fun c hcc => (hc c hcc).1)
    rw [he]
    exact h
  unfold LCF.serialize LCF.deserialize
  simp only [List.cons_append, List.nil_append, List.append_assoc]
  rw [LCF.readN_spec]
  simp only
  rw [h1]
  simp only
  rw [h2]
  simp only
  rw [h3]
  simp only
  rw [h4]
  simp only
  rw [h5]
  simp only
  rw [h6]
  simp only
  rw [LCF.assemble_spec]
  exact hf'

theorem LCF.length_pairs {α : Type} (l : List α) : (l.map (fun _ => 0 + 1 + 1)).sum = l.length * 2 := by
  induction l with
  | nil => rfl
  | cons e l ih => rw [List.map_cons, List.sum_cons, ih, List.length_cons]; omega

theorem LCF.sum_two {α : Type} (a : α → Nat) (l : List α) : (l.map (fun e => a e * 2)).sum = (l.map a).sum * 2 := by
  induction l with
  | nil => rfl
  | cons e l ih => simp only [List.map_cons, List.sum_cons, ih]; omega

omit [LinearOrder V] [IsStrictOrderedRing V] in
/-- C80: a function that is written and read is the same function; the sequences have the reported lengths, and what follows them is not read. -/
theorem C80_function_roundtrip (sort : List IV → Option (List IV)) (shape : List Nat) (cs : List (Con V)) (valid invalid : V) (f : LCF V)
    (hf : LCF.make sort shape cs valid invalid = some f)
    (hc : ∀ c ∈ cs, c.vars.length = c.coeffs.length ∧ ∀ v ∈ c.vars, ∃ ps op, v.Made ps op) (ri : List Nat) (rv : List V) :
    LCF.deserialize sort (f.serialize.1 ++ ri) (f.serialize.2 ++ rv) = some f ∧
      f.sizes = (f.serialize.1.length, f.serialize.2.length) := by
  refine ⟨LCF.deserialize_aux sort shape cs valid invalid f hf (fun c h => ⟨(hc c h).1, fun v hv => ((hc c h).2 v hv).choose_spec.choose_spec.spec.2⟩) ri rv, ?_⟩
  unfold LCF.sizes LCF.serialize
  ext
  · simp only [List.length_append, List.length_map, List.length_flatMap, LCF.length_pairs, LCF.sum_two, List.length_cons, List.length_nil]
    omega
  · simp only [List.length_append, List.length_map, List.length_flatMap, List.length_cons, List.length_nil]

/-- A `std::sort`, to show that the hypothesis of the theorems can be met. -/
noncomputable def stdSort (l : List IV) : Option (List IV) :=
  open Classical in
  if StrictWeakOn IV.less l then some ((l.attach.mergeSort (fun a b => !IV.less b.1 a.1)).map (fun a => a.1)) else none

theorem stdSort_isStdSort : IsStdSort IV.less stdSort where
  defined := by
    intro l h
    exact ⟨_, by unfold stdSort; rw [if_pos h]⟩
  perm := by
    intro l l' h
    unfold stdSort at h
    split at h
    · cases h
      exact ((List.mergeSort_perm _ _).map _).trans (by rw [List.attach_map_subtype_val])
    · simp at h
  sorted := by
    intro l l' hw h
    unfold stdSort at h
    rw [if_pos hw] at h
    cases h
    rw [List.pairwise_map]
    refine (List.pairwise_mergeSort (le := fun a b : { x // x ∈ l } => !IV.less b.1 a.1) ?_ ?_ l.attach).imp ?_
    · intro a b c h1 h2
      simp only [Bool.not_eq_true'] at h1 h2 ⊢
      by_contra hca
      rw [Bool.not_eq_false] at hca
      have hab : a.1.less b.1 = false := by
        by_contra h
        rw [Bool.not_eq_false] at h
        have := hw.2.1 _ c.2 _ a.2 _ b.2 hca h
        rw [h2] at this; simp at this
      have hbc : b.1.less c.1 = false := by
        by_contra h
        rw [Bool.not_eq_false] at h
        have := hw.2.1 _ b.2 _ c.2 _ a.2 h hca
        rw [h1] at this; simp at this
      have := (hw.2.2 _ a.2 _ b.2 _ c.2 hab h1 hbc h2).2
      rw [hca] at this; simp at this
    · intro a b
      simp only [Bool.or_eq_true, Bool.not_eq_true']
      by_contra h
      rw [not_or, Bool.not_eq_false, Bool.not_eq_false] at h
      have := hw.2.1 _ a.2 _ b.2 _ a.2 h.2 h.1
      rw [hw.1 _ a.2] at this; simp at this
    · intro a b h
      simpa using h

/-- Two constraints with three indicator variables: the hypotheses of the theorems about LinearConstraintFunction can be met, and one of the constraints is
violated. -/
example : ∃ f : LCF Int, LCF.make stdSort [2, 2]
      [⟨[IV.ofPair 1 0 .and_, IV.ofPair 0 1 .and_], [2, 3], 4, .lessEqual⟩, ⟨[IV.ofPair 0 1 .and_, IV.ofPair 1 1 .not_], [1, 1], 1, .greaterEqual⟩] 0 9
        = some f ∧ f.eval 0 [1, 0] = some 9 ∧ f.challenge [1, 0] 0 = some [(0, 1)] ∧
          f.challengeRelaxed (f.varList.map (onValue [1, 0])) 0 = some [(0, 1)] := by
  obtain ⟨f, hf, -⟩ := C80_function_variables (V := Int) stdSort_isStdSort [2, 2]
    [⟨[IV.ofPair 1 0 .and_, IV.ofPair 0 1 .and_], [2, 3], 4, .lessEqual⟩, ⟨[IV.ofPair 0 1 .and_, IV.ofPair 1 1 .not_], [1, 1], 1, .greaterEqual⟩] 0 9
    (Or.inl (by decide))
  refine ⟨f, hf, ?_, ?_, ?_⟩
  · rw [C80_function 0 _ _ _ _ _ f hf [1, 0] (by decide)]; decide
  · rw [C80_challenge _ _ _ _ _ f hf [1, 0] (by decide)]; decide
  · have h := C80_challengeRelaxed stdSort_isStdSort _ _ _ _ f hf (by decide) (onValue [1, 0]) [] 0 (by decide)
    rw [List.append_nil] at h
    rw [h]; decide

/-! ### LabelOrderFunction -/

namespace LabelOrder

omit [LinearOrder V] [IsStrictOrderedRing V] in
/-- The functions the two constructors make, under the conditions their assertions state, with the numbers of labels and the rank of every label. -/
inductive Made : LabelOrder V → Nat → Nat → (Nat → V) → V → V → Prop
  | list (n1 n2 : Nat) (order : List V) (valid invalid : V) (h1 : n1 ≤ order.length) (h2 : n2 ≤ order.length) (f : LabelOrder V)
      (hf : make n1 n2 order valid invalid = some f) : Made f n1 n2 (fun i => order.getD i 0) valid invalid
  | iterator (n1 n2 : Nat) (order : List V) (valid invalid : V) (h1 : n1 ≤ order.length) (h2 : n2 ≤ order.length) (f : LabelOrder V)
      (hf : makeFrom n1 n2 order valid invalid = some f) : Made f n1 n2 (fun i => order.getD i 0) valid invalid

omit [LinearOrder V] [IsStrictOrderedRing V] in
theorem Made.spec {f : LabelOrder V} {n1 n2 : Nat} {w : Nat → V} {valid invalid : V} (h : Made f n1 n2 w valid invalid) :
    ∃ o : List V, n1 ≤ o.length ∧ n2 ≤ o.length ∧ make n1 n2 o valid invalid = some f ∧ ∀ i, i < n1 ∨ i < n2 → o[i]? = some (w i) := by
  have hg : ∀ (o : List V) (i : Nat), i < o.length → o[i]? = some (o.getD i 0) := by
    intro o i hi; simp [List.getElem?_eq_getElem hi]
  rcases h with ⟨_, _, o, _, _, h1, h2, _, hf⟩ | ⟨_, _, o, _, _, h1, h2, _, hf⟩
  · exact ⟨o, h1, h2, hf, fun i hi => hg o i (by omega)⟩
  · unfold makeFrom at hf
    have hr : readN (max n1 n2) o = some (o.take (max n1 n2), o.drop (max n1 n2)) := by
      have h := LCF.readN_spec (o.take (max n1 n2)) (o.drop (max n1 n2))
      rw [List.take_append_drop, List.length_take, min_eq_left (by omega)] at h
      exact h
    rw [hr] at hf
    refine ⟨_, ?_, ?_, hf, ?_⟩
    · rw [List.length_take]; omega
    · rw [List.length_take]; omega
    · intro i hi
      rw [List.getElem?_take, if_pos (by omega)]
      exact hg o i (by omega)

omit [LinearOrder V] [IsStrictOrderedRing V] in
/-- C80: the constructors of LabelOrderFunction are defined; the function has the given shape, and its indicator variables are one for every label of the
first variable followed by one for every label of the second. -/
theorem C80_labelOrder_made (n1 n2 : Nat) (order : List V) (valid invalid : V) (h1 : n1 ≤ order.length) (h2 : n2 ≤ order.length) :
    (∃ f, make n1 n2 order valid invalid = some f) ∧ (∃ f, makeFrom n1 n2 order valid invalid = some f) ∧
      ∀ f w, Made f n1 n2 w valid invalid → f.shapeAt 0 = n1 ∧ f.shapeAt 1 = n2 ∧ f.size = n1 * n2 ∧
        f.varList = (List.range n1).map (fun i => ⟨[(0, i)], .and_⟩) ++ (List.range n2).map (fun i => ⟨[(1, i)], .and_⟩) := by
  refine ⟨⟨_, make_eq valid invalid h1 h2⟩, ?_, ?_⟩
  · unfold makeFrom
    have h := LCF.readN_spec (order.take (max n1 n2)) (order.drop (max n1 n2))
    rw [List.take_append_drop, List.length_take, min_eq_left (by omega)] at h
    rw [h]
    exact ⟨_, make_eq valid invalid (by rw [List.length_take]; omega) (by rw [List.length_take]; omega)⟩
  · intro f w h
    obtain ⟨o, h1, h2, hf, -⟩ := h.spec
    rw [make_eq valid invalid h1 h2] at hf
    cases hf
    exact ⟨rfl, rfl, rfl, rfl⟩

omit [IsStrictOrderedRing V] in
/-- C80: the function has the value for valid labelings if and only if the label of the first variable is not ranked above the label of the second. -/
theorem C80_labelOrder {f : LabelOrder V} {n1 n2 : Nat} {w : Nat → V} {valid invalid : V} (h : Made f n1 n2 w valid invalid) (a b : Nat)
    (ha : a < n1) (hb : b < n2) (rest : List Nat) : f.eval (a :: b :: rest) = some (if w a ≤ w b then valid else invalid) := by
  obtain ⟨o, h1, h2, hf, ho⟩ := h.spec
  rw [make_eq valid invalid h1 h2] at hf
  cases hf
  unfold eval
  simp only [List.getElem?_cons_zero, List.getElem?_cons_succ, ho a (Or.inl ha), ho b (Or.inr hb)]
  split <;> rfl

/-- The amount by which the constraint of the function is missed. -/
theorem violated_le (c : Con V) (y : IV → V) (tol : V) (ht : 0 ≤ tol) (hc : c.op = .lessEqual) :
    violated [c] y tol = if lhs c y - c.bound ≤ tol then [] else [(0, lhs c y - c.bound)] := by
  unfold violated
  simp only [List.zipIdx_cons, List.zipIdx_nil, List.filterMap_cons, List.filterMap_nil, hc]
  by_cases h : lhs c y - c.bound ≤ tol
  · have hv : ¬ tol < violation .lessEqual (lhs c y) c.bound := not_lt.mpr (max_le h ht)
    rw [if_neg hv, if_pos h]
  · have hv : violation .lessEqual (lhs c y) c.bound = lhs c y - c.bound := max_eq_left (by linarith [not_le.mp h])
    rw [hv, if_pos (not_le.mp h), if_neg h]

/-- C80: the linear constraint of the function states the order of the labels: it is missed by the difference of the ranks, and it is met if and only if the
function has the value for valid labelings. `challenge` reports it if and only if it is missed by more than the tolerance. -/
theorem C80_labelOrder_challenge {f : LabelOrder V} {n1 n2 : Nat} {w : Nat → V} {valid invalid : V} (h : Made f n1 n2 w valid invalid) (a b : Nat)
    (ha : a < n1) (hb : b < n2) (rest : List Nat) (tol : V) (ht : 0 ≤ tol) :
    f.challenge (a :: b :: rest) tol = some (violated f.constraints (onValue (a :: b :: rest)) tol) ∧
      violated f.constraints (onValue (a :: b :: rest)) tol = if w a - w b ≤ tol then [] else [(0, w a - w b)] := by
  obtain ⟨o, h1, h2, hf, ho⟩ := h.spec
  rw [make_eq valid invalid h1 h2] at hf
  cases hf
  have hv : ∀ c : Con V, c = ⟨(List.range n1).map (fun i => IV.ofPair 0 i .and_) ++ (List.range n2).map (fun i => IV.ofPair 1 i .and_),
      (List.range n1).map (fun i => o.getD i 0) ++ (List.range n2).map (fun i => -o.getD i 0), 0, .lessEqual⟩ → lhs c (onValue (a :: b :: rest)) - c.bound = w a - w b := by
    rintro c rfl
    rw [lhs_eq, sum_on (fun i => o.getD i 0) _ a n1 ha (fun i => onValue_ofPair _ _ _ _ rfl),
      sum_on (fun i => o.getD i 0) _ b n2 hb (fun i => onValue_ofPair _ _ _ _ rfl)]
    simp [ho a (Or.inl ha), ho b (Or.inr hb)]
  have he : violated [(⟨(List.range n1).map (fun i => IV.ofPair 0 i .and_) ++ (List.range n2).map (fun i => IV.ofPair 1 i .and_),
      (List.range n1).map (fun i => o.getD i 0) ++ (List.range n2).map (fun i => -o.getD i 0), 0, .lessEqual⟩ : Con V)] (onValue (a :: b :: rest)) tol = if w a - w b ≤ tol then [] else [(0, w a - w b)] := by
    rw [violated_le _ _ _ ht rfl, hv _ rfl]
  refine ⟨?_, he⟩
  rw [he]
  unfold challenge
  simp only [List.getElem?_cons_zero, List.getElem?_cons_succ, ho a (Or.inl ha), ho b (Or.inr hb)]
  split <;> rfl

/-- C80: `challengeRelaxed` reports the constraint if and only if the given values of the indicator variables miss it by more than the tolerance. -/
theorem C80_labelOrder_relaxed {f : LabelOrder V} {n1 n2 : Nat} {w : Nat → V} {valid invalid : V} (h : Made f n1 n2 w valid invalid) (y : IV → V)
    (rest : List V) (tol : V) (ht : 0 ≤ tol) : f.challengeRelaxed (f.varList.map y ++ rest) tol = some (violated f.constraints y tol) := by
  obtain ⟨o, h1, h2, hf, ho⟩ := h.spec
  rw [make_eq valid invalid h1 h2] at hf
  cases hf
  unfold challengeRelaxed
  simp only
  rw [violated_le _ _ _ ht rfl]
  simp only
  rw [lhs_eq]
  rw [relaxedSum_spec o _ n1 true (fun i => y (IV.ofPair 1 i .and_)) _ _ (by simpa using fun i hi => Nat.lt_of_lt_of_le hi h2)
    (by
      intro i hi
      rw [List.mem_range] at hi
      rw [List.getElem?_append_left (by simp; omega), List.map_append, List.getElem?_append_right (by simp)]
      simp [hi])]
  simp only
  rw [relaxedSum_spec o _ 0 false (fun i => y (IV.ofPair 0 i .and_)) _ _ (by simpa using fun i hi => Nat.lt_of_lt_of_le hi h1)
    (by
      intro i hi
      rw [List.mem_range] at hi
      rw [List.getElem?_append_left (by simp; omega), List.map_append, List.getElem?_append_left (by simp; omega)]
      simp [hi])]
  simp only [if_true, Bool.false_eq_true, if_false]
  rw [show (0 : V) - ((List.range n2).map (fun i => o.getD i 0 * y (IV.ofPair 1 i .and_))).sum +
      ((List.range n1).map (fun i => o.getD i 0 * y (IV.ofPair 0 i .and_))).sum =
      ((List.range n1).map (fun i => o.getD i 0 * y (IV.ofPair 0 i .and_))).sum -
      ((List.range n2).map (fun i => o.getD i 0 * y (IV.ofPair 1 i .and_))).sum - 0 from by ring]
  split
  · rename_i hgt; rw [if_neg (not_le.mpr hgt)]
  · rename_i hgt; rw [if_pos (not_lt.mp hgt)]

omit [LinearOrder V] [IsStrictOrderedRing V] in
/-- C80: a function that is written and read is the same function; the sequences have the reported lengths, and what follows them is not read. -/
theorem C80_labelOrder_roundtrip {f : LabelOrder V} {n1 n2 : Nat} {w : Nat → V} {valid invalid : V} (h : Made f n1 n2 w valid invalid)
    (ri : List Nat) (rv : List V) :
    deserialize (f.serialize.1 ++ ri) (f.serialize.2 ++ rv) = some f ∧ f.sizes = (f.serialize.1.length, f.serialize.2.length) := by
  obtain ⟨o, h1, h2, hf, -⟩ := h.spec
  have hf' := hf
  rw [make_eq valid invalid h1 h2] at hf
  cases hf
  refine ⟨?_, by simp [sizes, serialize]⟩
  unfold serialize deserialize
  simp only [List.cons_append, List.nil_append, List.append_assoc]
  rw [LCF.readN_spec]
  exact hf'

example : (make 2 3 [5, 1, 4] 0 (9 : Int)).bind (fun f => f.eval [0, 1]) = some 9 ∧
    (make 2 3 [5, 1, 4] 0 (9 : Int)).bind (fun f => f.challenge [0, 1] 1) = some [(0, 4)] ∧
    (make 2 3 [5, 1, 4] 0 (9 : Int)).bind (fun f => f.challengeRelaxed [1, 0, 0, 1, 0] 1) = some [(0, 4)] := by decide

end LabelOrder

/-! ### NumLabelsLimitationFunction -/

namespace NumLabels

omit [LinearOrder V] [IsStrictOrderedRing V] in
/-- The functions the two constructors make, with the shape and the number of labels that may be used. -/
inductive Made : NumLabels V → List Nat → Nat → V → V → Prop
  | shape (shape : List Nat) (maxUsed : Nat) (valid invalid : V) (f : NumLabels V) (hf : ofShape shape maxUsed valid invalid = some f) :
      Made f shape maxUsed valid invalid
  | counts (n k maxUsed : Nat) (valid invalid : V) (f : NumLabels V) (hf : ofCounts n k maxUsed valid invalid = some f) :
      Made f (List.replicate n k) maxUsed valid invalid

theorem fillSpec {b : Base} {shape : List Nat} (hd : Describes b shape) : FillSpec b shape where
  numVariables := hd.numVariables
  same := by
    intro h s hs
    rw [hd.same h] at hs
    exact (List.mem_replicate.mp hs).2
  own := fun h => (hd.full h).1

omit [LinearOrder V] [IsStrictOrderedRing V] in
theorem make_eq {b : Base} {shape : List Nat} (hd : Describes b shape) (maxUsed : Nat) (valid invalid : V) :
    make b maxUsed valid invalid = some
      { base := b, maxUsed := maxUsed, valid := valid, invalid := invalid,
        constraints := [⟨(List.range b.maxNumLabels).map (fun i => ⟨pairsOf shape i (List.range shape.length), .or_⟩),
          List.replicate ((List.range b.maxNumLabels).map (fun i => (⟨pairsOf shape i (List.range shape.length), .or_⟩ : IV))).length 1,
          (maxUsed : V), .lessEqual⟩],
        varList := (List.range b.maxNumLabels).map (fun i => ⟨pairsOf shape i (List.range shape.length), .or_⟩) } := by
  unfold make
  rw [fill_spec (fillSpec hd) _ (by simp), Option.map_some, constraint_eq]

omit [LinearOrder V] [IsStrictOrderedRing V] in
theorem Made.spec {f : NumLabels V} {shape : List Nat} {maxUsed : Nat} {valid invalid : V} (h : Made f shape maxUsed valid invalid) :
    ∃ b, (b = Base.ofShape shape ∨ ∃ n k, shape = List.replicate n k ∧ Base.ofCounts n k = some b) ∧ Describes b shape ∧ make b maxUsed valid invalid = some f := by
  rcases h with ⟨_, _, _, _, _, hf⟩ | ⟨n, k, _, _, _, _, hf⟩
  · exact ⟨_, Or.inl rfl, describes_ofShape shape, hf⟩
  · unfold ofCounts at hf
    rw [ofCounts_eq] at hf
    exact ⟨_, Or.inr ⟨n, k, rfl, ofCounts_eq n k⟩, describes_ofCounts (ofCounts_eq n k), hf⟩

omit [LinearOrder V] [IsStrictOrderedRing V] in
/-- C80: the constructors of NumLabelsLimitationFunction are defined; the function has the given shape, and indicator variable `i` of its list is on if and
only if label `i` is used. -/
theorem C80_numLabels_made (shape : List Nat) (n k maxUsed : Nat) (valid invalid : V) :
    (∃ f, ofShape shape maxUsed valid invalid = some f) ∧ (∃ f, ofCounts n k maxUsed valid invalid = some f) ∧
      ∀ f shape, Made f shape maxUsed valid invalid → f.base.numVariables = shape.length ∧ (∀ i, i < shape.length → f.base.shapeAt i = shape[i]?) ∧
        f.varList.length = f.base.maxNumLabels ∧ (∀ s ∈ shape, s ≤ f.base.maxNumLabels) ∧
        ∀ x, InShape shape x → ∀ i v, f.varList[i]? = some v → (IsOn v x ↔ i ∈ x) := by
  refine ⟨⟨_, make_eq (describes_ofShape shape) _ _ _⟩, ?_, ?_⟩
  · unfold ofCounts
    rw [ofCounts_eq]
    exact ⟨_, make_eq (describes_ofCounts (ofCounts_eq n k)) _ _ _⟩
  · intro f shape h
    obtain ⟨b, -, hd, hf⟩ := h.spec
    rw [make_eq hd] at hf
    cases hf
    refine ⟨hd.numVariables, hd.shapeAt, by simp, hd.bound, ?_⟩
    intro x hx i v hv
    simp only [List.getElem?_map, Option.map_eq_some_iff] at hv
    obtain ⟨j, hj, rfl⟩ := hv
    obtain ⟨hlt, rfl⟩ := List.getElem?_eq_some_iff.mp hj
    rw [List.getElem_range]
    exact isOn_iff shape x hx i

/-- C80: the function has the value for valid labelings if and only if at most `maxUsed` different labels are used. -/
theorem C80_numLabels {f : NumLabels V} {shape : List Nat} {maxUsed : Nat} {valid invalid : V} (h : Made f shape maxUsed valid invalid) (x rest : List Nat)
    (hx : InShape shape x) : f.eval (x ++ rest) = some (if x.toFinset.card ≤ maxUsed then valid else invalid) := by
  obtain ⟨b, -, hd, hf⟩ := h.spec
  rw [make_eq hd] at hf
  cases hf
  unfold eval
  simp only
  rw [hd.numVariables, ← inShape_length hx]
  have h := loop_spec b.maxNumLabels maxUsed valid invalid rest x (List.replicate b.maxNumLabels false) ∅ (inShape_lt hx hd.bound)
    (by intro l hl; simp [hl]) (by simp)
  rw [Finset.card_empty, Finset.union_empty] at h
  exact h

/-- C80: the linear constraint of the function limits the number of labels: it is missed by the number of labels in excess, and `challenge` reports it if and
only if it is missed by more than the tolerance. -/
theorem C80_numLabels_challenge {f : NumLabels V} {shape : List Nat} {maxUsed : Nat} {valid invalid : V} (h : Made f shape maxUsed valid invalid)
    (x rest : List Nat) (hx : InShape shape x) (tol : V) (ht : 0 ≤ tol) :
    f.challenge (x ++ rest) tol = some (violated f.constraints (onValue x) tol) ∧
      violated f.constraints (onValue x) tol =
        if ((x.toFinset.card : Nat) : V) - (maxUsed : V) ≤ tol then [] else [(0, ((x.toFinset.card : Nat) : V) - (maxUsed : V))] := by
  obtain ⟨b, -, hd, hf⟩ := h.spec
  rw [make_eq hd] at hf
  cases hf
  simp only
  have he := LabelOrder.violated_le (⟨(List.range b.maxNumLabels).map (fun i => ⟨pairsOf shape i (List.range shape.length), .or_⟩),
          List.replicate ((List.range b.maxNumLabels).map (fun i => (⟨pairsOf shape i (List.range shape.length), .or_⟩ : IV))).length 1,
          (maxUsed : V), .lessEqual⟩ : Con V) (onValue x) tol ht rfl
  rw [lhs_ones, sum_on shape x hx _ (inShape_lt hx hd.bound)] at he
  refine ⟨?_, he⟩
  rw [he]
  unfold challenge
  simp only
  rw [hd.numVariables, ← inShape_length hx]
  have h := countLoop_spec b.maxNumLabels rest x (List.replicate b.maxNumLabels false) ∅ (inShape_lt hx hd.bound)
    (by intro l hl; simp [hl]) (by simp)
  rw [Finset.card_empty, Finset.union_empty] at h
  rw [h]
  simp only
  split <;> rfl

/-- C80: `challengeRelaxed` reports the constraint if and only if the given values of the indicator variables miss it by more than the tolerance. -/
theorem C80_numLabels_relaxed {f : NumLabels V} {shape : List Nat} {maxUsed : Nat} {valid invalid : V} (h : Made f shape maxUsed valid invalid)
    (y : IV → V) (rest : List V) (tol : V) (ht : 0 ≤ tol) :
    f.challengeRelaxed (f.varList.map y ++ rest) tol = some (violated f.constraints y tol) := by
  obtain ⟨b, -, hd, hf⟩ := h.spec
  rw [make_eq hd] at hf
  cases hf
  unfold challengeRelaxed
  simp only
  rw [LabelOrder.violated_le _ _ _ ht rfl, lhs_ones]
  rw [relaxedSum_spec _ (fun i => y ⟨pairsOf shape i (List.range shape.length), .or_⟩) _ _
    (by
      intro i hi
      rw [List.mem_range] at hi
      rw [List.getElem?_append_left (by simpa using hi)]
      simp [hi])]
  simp only [List.map_map, Function.comp_def]
  rw [neg_add_eq_sub]
  split
  · rename_i hgt; rw [if_neg (not_le.mpr hgt)]
  · rename_i hgt; rw [if_pos (not_lt.mp hgt)]

omit [LinearOrder V] [IsStrictOrderedRing V] in
/-- C80: a function can be written and read. The sizes are those of the sequences, and the function that is read has the same dimension, shape, values,
constraints and indicator variables, and the same number of entries if that is below `2 ^ 31`. -/
theorem C80_numLabels_roundtrip_partial {f : NumLabels V} {shape : List Nat} {maxUsed : Nat} {valid invalid : V} (h : Made f shape maxUsed valid invalid)
    (ri : List Nat) (rv : List V) :
    f.sizes = (f.serialize.1.length, f.serialize.2.length) ∧
      ∃ g, deserialize (f.serialize.1 ++ ri) (f.serialize.2 ++ rv) = some g ∧ Made g shape maxUsed valid invalid ∧
        g.constraints = f.constraints ∧ g.varList = f.varList ∧ (shape.prod < 2 ^ 31 → g.base.size = f.base.size) := by
  obtain ⟨b, hb, hd, hf⟩ := h.spec
  have hf' := hf
  rw [make_eq hd] at hf
  by_cases hs : b.same = true
  · have hbase := LabelCost.base_same hd hs
    have hrep := hd.same hs
    rw [← hd.numVariables] at hrep
    have hd' := describes_ofCounts hbase
    rw [← hrep] at hd'
    have hg : ofCounts b.numVariables b.maxNumLabels maxUsed valid invalid =
        make { b with shape := [], size := b.maxNumLabels ^ b.numVariables % 2 ^ 64 } maxUsed valid invalid := by
      unfold ofCounts
      rw [hbase]
      rfl
    have hm := hg
    rw [make_eq hd'] at hm
    cases hf
    obtain ⟨g, hm, hsz, hcs, hvl⟩ : ∃ g : NumLabels V, ofCounts b.numVariables b.maxNumLabels maxUsed valid invalid = some g ∧
        g.base.size = b.maxNumLabels ^ b.numVariables % 2 ^ 64 ∧
        g.constraints = [⟨(List.range b.maxNumLabels).map (fun i => ⟨pairsOf shape i (List.range shape.length), .or_⟩),
          List.replicate ((List.range b.maxNumLabels).map (fun i => (⟨pairsOf shape i (List.range shape.length), .or_⟩ : IV))).length 1,
          (maxUsed : V), .lessEqual⟩] ∧
        g.varList = (List.range b.maxNumLabels).map (fun i => ⟨pairsOf shape i (List.range shape.length), .or_⟩) := ⟨_, hm, rfl, rfl, rfl⟩
    refine ⟨by simp [sizes, serialize, hs], g, ?_, ?_, hcs, hvl, ?_⟩
    · simp only [serialize, deserialize, hs, if_true, List.cons_append, List.nil_append, ne_eq, one_ne_zero, not_false_eq_true,
        readN, Option.map_some, List.getElem?_cons_zero]
      exact hm
    · have hc := Made.counts b.numVariables b.maxNumLabels maxUsed valid invalid _ hm
      rwa [← hrep] at hc
    · intro hp
      rw [LabelCost.base_small hb hp, hsz]
      have e' : shape.prod = b.maxNumLabels ^ b.numVariables := by conv_lhs => rw [hrep, List.prod_replicate]
      rw [e']
      rw [e'] at hp
      exact Nat.mod_eq_of_lt (by omega)
  · have hs' : b.same = false := by simpa using hs
    have hshape := (hd.full hs').1
    have hfull := LabelCost.base_full hb hs'
    cases hf
    refine ⟨by simp [sizes, serialize, hs']; omega, _, ?_, h, rfl, rfl, fun _ => rfl⟩
    simp only [serialize, deserialize, hs', if_false, List.cons_append, List.nil_append, ne_eq, Bool.false_eq_true, not_true_eq_false,
      List.append_assoc]
    rw [hshape, hd.numVariables, LCF.readN_spec]
    simp only
    unfold ofShape
    rw [hfull]
    exact hf'

example : (ofShape [3, 2, 3] 2 0 (9 : Int)).bind (fun f => f.eval [2, 1, 0]) = some 9 ∧
    (ofShape [3, 2, 3] 2 0 (9 : Int)).bind (fun f => f.challenge [2, 1, 0] 0) = some [(0, 1)] ∧
    (ofShape [3, 2, 3] 2 0 (9 : Int)).map (fun f => f.varList) =
      some [⟨[(0, 0), (1, 0), (2, 0)], .or_⟩, ⟨[(0, 1), (1, 1), (2, 1)], .or_⟩, ⟨[(0, 2), (2, 2)], .or_⟩] := by decide

end NumLabels

/-- C80: for four variables with two labels, of which two may be used, every labeling is valid, but `max()` reports the value for invalid labelings. -/
theorem C80_violated_max : ∃ f : NumLabels Int, NumLabels.Made f [2, 2, 2, 2] 2 0 9 ∧ (∀ x, InShape [2, 2, 2, 2] x → f.eval x = some 0) ∧
    LCF.max_ f.valid f.invalid = 9 := by
  obtain ⟨⟨f, hf⟩, -, -⟩ := NumLabels.C80_numLabels_made (V := Int) [2, 2, 2, 2] 0 0 2 0 9
  have hm : NumLabels.Made f [2, 2, 2, 2] 2 0 9 := .shape _ _ _ _ f hf
  refine ⟨f, hm, ?_, ?_⟩
  · intro x hx
    have h := NumLabels.C80_numLabels hm x [] hx
    rw [List.append_nil] at h
    rw [h, if_pos]
    have hsub : x.toFinset ⊆ Finset.range 2 := by
      intro l hl
      exact Finset.mem_range.mpr (inShape_lt hx (by simp) l (List.mem_toFinset.mp hl))
    exact le_trans (Finset.card_le_card hsub) (by simp)
  · obtain ⟨b, -, hd, hf'⟩ := hm.spec
    rw [NumLabels.make_eq hd] at hf'
    cases hf'
    simp [LCF.max_]

end
end OpenGM.LinCon
