import Verif.Model.Iterators
import Verif.Lemmas.DPOrder
import Verif.Lemmas.Built
import Verif.Props.ExplicitModel
/-
C93: the iterators over shapes, labels and subsequences are random access iterators.
-/
namespace OpenGM
namespace Iterators
open Spec Spec.Iterators
variable {V α : Type}

theorem wrap_of {N : Nat} {x : Int} (h0 : 0 ≤ x) (h1 : x < N) : (wrap N x : Int) = x := by
  unfold wrap
  rw [Int.emod_eq_of_lt h0 h1]
  exact Int.toNat_of_nonneg h0

theorem wrap_sub {N : Nat} (hN : 0 < N) (a b : Int) : wrap N (a - (wrap N b : Int)) = wrap N (a - b) := by
  unfold wrap
  have hN' : (N : Int) ≠ 0 := by omega
  rw [Int.toNat_of_nonneg (Int.emod_nonneg _ hN')]
  congr 1
  exact Int.sub_emod_emod a b N

theorem wrap_add {N : Nat} (hN : 0 < N) (a b : Int) : wrap N (a + (wrap N b : Int)) = wrap N (a + b) := by
  unfold wrap
  have hN' : (N : Int) ≠ 0 := by omega
  rw [Int.toNat_of_nonneg (Int.emod_nonneg _ hN')]
  congr 1
  exact Int.add_emod_emod a b N

/-- C93: an AccessorIterator that is moved within its sequence, by any operations, is at the position that the moves give, and stays an iterator of its sequence.
Dereferencing it gives the element at this position, `it[j]` the element `j` positions later. -/
theorem C93_accessor_moves {N : Nat} (acc : Accessor α) (hN : acc.size < N) : ∀ (ms : List Move) (pos : Nat), pos ≤ acc.size → Within acc.size pos ms →
    let it := ms.foldl (AIter.move N) ⟨acc, pos⟩
    it.acc = acc ∧ (it.index : Int) = position pos ms ∧ it.index ≤ acc.size ∧ it.deref = acc.get (position pos ms).toNat ∧
      ∀ j, it.index + j < acc.size → it.at' N j = acc.get ((position pos ms).toNat + j)
  | [], pos, hp, _ => by
    refine ⟨rfl, by simp [position], hp, by simp [AIter.deref, position], ?_⟩
    intro j hj
    simp only [List.foldl_nil] at hj ⊢
    have : ((wrap N ((pos : Int) + j) : Nat) : Int) = ((pos + j : Nat) : Int) := by rw [wrap_of (by omega) (by omega)]; simp
    simp only [AIter.at', position, List.map_nil, List.sum_nil, Int.add_zero, Int.toNat_natCast]
    rw [Int.ofNat_inj.mp this]
  | m :: ms, pos, hp, hw => by
    obtain ⟨h1, h2, h3⟩ := hw
    obtain ⟨q, hq⟩ : ∃ q : Nat, (q : Int) = pos + m.delta := ⟨((pos : Int) + m.delta).toNat, Int.toNat_of_nonneg h1⟩
    have hqs : q ≤ acc.size := by omega
    have hwq : wrap N (pos + m.delta) = q := by
      have := wrap_of (N := N) h1 (by omega)
      omega
    have hstep : AIter.move N ⟨acc, pos⟩ m = ⟨acc, q⟩ := by
      cases m with
      | inc =>
        simp only [Move.delta] at hq hwq
        simp only [AIter.move, AIter.inc]
        rw [if_pos (by omega), hwq]
      | postInc =>
        simp only [Move.delta] at hq hwq
        simp only [AIter.move, AIter.postInc]
        rw [if_pos (by omega)]
        simp only [hwq]
      | dec =>
        simp only [Move.delta] at hq hwq
        simp only [AIter.move, AIter.dec, Int.sub_eq_add_neg, hwq]
      | postDec =>
        simp only [Move.delta] at hq hwq
        simp only [AIter.move, AIter.postDec, Int.sub_eq_add_neg, hwq]
      | add n =>
        simp only [Move.delta] at hq hwq
        simp only [AIter.move, AIter.add]
        rw [wrap_add (by omega), hwq, if_pos hqs]
      | plus n =>
        simp only [Move.delta] at hq hwq
        simp only [AIter.move, AIter.plus, AIter.add]
        rw [wrap_add (by omega), hwq, if_pos hqs]
      | sub n =>
        simp only [Move.delta] at hq hwq
        simp only [AIter.move, AIter.sub]
        rw [wrap_sub (by omega), Int.sub_eq_add_neg, hwq]
      | minus n =>
        simp only [Move.delta] at hq hwq
        simp only [AIter.move, AIter.minus, AIter.sub]
        rw [wrap_sub (by omega), Int.sub_eq_add_neg, hwq]
    rw [List.foldl_cons, hstep]
    have hpos : position pos (m :: ms) = position q ms := by simp only [position, List.map_cons, List.sum_cons]; omega
    rw [hpos]
    exact C93_accessor_moves acc hN ms q hqs (hq ▸ h3)

/-- C93: an AccessorIterator that is moved forwards beyond the end stays at the end. -/
theorem C93_accessor_saturates {N : Nat} (it : AIter α) (j : Nat) (h : it.acc.size ≤ it.index + j) (hi : it.index ≤ it.acc.size) (hN : it.index + j < N) :
    it.add N j = ⟨it.acc, it.acc.size⟩ ∧ it.plus N j = ⟨it.acc, it.acc.size⟩ ∧ (it.index = it.acc.size → it.inc N = it ∧ (it.postInc N).2 = it) := by
  have hw : wrap N ((it.index : Int) + j) = it.index + j := by
    have := wrap_of (N := N) (x := (it.index : Int) + j) (by omega) (by omega)
    omega
  have hadd : it.add N j = ⟨it.acc, it.acc.size⟩ := by
    unfold AIter.add
    rw [hw]
    by_cases h1 : it.index + j ≤ it.acc.size
    · rw [if_pos h1]
      have : it.index + j = it.acc.size := by omega
      rw [this]
    · rw [if_neg h1]
  refine ⟨hadd, hadd, ?_⟩
  intro he
  simp [AIter.inc, AIter.postInc, he]

/-- C93: `it++` and `it--` return the iterator as it was. -/
theorem C93_accessor_postfix (N : Nat) (it : AIter α) : (it.postInc N).1 = it ∧ (it.postDec N).1 = it ∧ (it.postInc N).2 = it.inc N ∧ (it.postDec N).2 = it.dec N := by
  unfold AIter.postInc AIter.inc AIter.postDec AIter.dec
  by_cases h : it.index < it.acc.size <;> simp [h]

/-- C93: iterators of one sequence compare like their positions, and the difference of an iterator and one that is not behind it is the distance. -/
theorem C93_accessor_compare_partial {N : Nat} (a b : AIter α) (ha : a.index < N) :
    (a.eq b = true ↔ a.index = b.index) ∧ (a.ne b = true ↔ a.index ≠ b.index) ∧ (a.le b = true ↔ a.index ≤ b.index) ∧ (a.ge b = true ↔ b.index ≤ a.index) ∧
    (a.lt b = true ↔ a.index < b.index) ∧ (a.gt b = true ↔ b.index < a.index) ∧ (b.index ≤ a.index → a.diff N b = a.index - b.index) := by
  refine ⟨?_, ?_, ?_, ?_, ?_, ?_, ?_⟩
  · simp only [AIter.eq, decide_eq_true_eq]
    exact eq_comm
  · simp only [AIter.ne, decide_eq_true_eq]
    exact ne_comm
  · simp [AIter.le]
  · simp [AIter.ge]
  · simp [AIter.lt]
  · simp [AIter.gt]
  · intro h
    have := wrap_of (N := N) (x := (a.index : Int) - b.index) (by omega) (by omega)
    unfold AIter.diff
    omega

/-- C93 is violated: the difference of an iterator and a later one is not negative: the type of differences is size_t. For positions `a < b` the result is
2^64 - (b - a). -/
theorem C93_violated_difference {N : Nat} (a b : AIter α) (hab : a.index < b.index) (hb : b.index < N) : a.diff N b = N - (b.index - a.index) := by
  unfold AIter.diff wrap
  have : ((a.index : Int) - b.index) % N = (N : Int) - (b.index - a.index) := by
    rw [← Int.add_emod_right, Int.emod_eq_of_lt (by omega) (by omega)]
    omega
  rw [this]
  omega

/-- C93: the loop from begin to end over an accessor of the sequence `l` visits the elements of `l`, in order. -/
theorem C93_collect {N : Nat} (acc : Accessor α) (l : List α) (hs : acc.size = l.length) (hg : ∀ j, j < l.length → acc.get j = l[j]?) (hN : l.length < N) :
    collect N acc = some l := by
  have key : ∀ (k i : Nat), i + k = l.length → AIter.collectLoop N ⟨acc, acc.size⟩ (k + 1) ⟨acc, i⟩ (l.take i) = some l := by
    intro k
    induction k with
    | zero =>
      intro i hi
      rw [AIter.collectLoop, if_neg (by simp [AIter.ne, hs]; omega), List.take_of_length_le (by omega)]
    | succ k ih =>
      intro i hi
      have hil : i < l.length := by omega
      rw [AIter.collectLoop, if_pos (by simp [AIter.ne, hs]; omega)]
      simp only [AIter.deref]
      rw [hg i hil, List.getElem?_eq_getElem hil]
      simp only [AIter.inc]
      rw [if_pos (by omega)]
      have hw : wrap N ((i : Int) + 1) = i + 1 := by
        have := wrap_of (N := N) (x := (i : Int) + 1) (by omega) (by omega)
        omega
      rw [hw, List.take_append_getElem hil]
      exact ih (i + 1) (by omega)
  unfold collect
  rw [hs] at key ⊢
  exact key l.length 0 (by omega)

/-- C93: iterating over the shape of a function gives its shape. -/
theorem C93_function_shape {N : Nat} (f : Fn V) (hN : f.shape.length < N) : collect N (functionShape (some f)) = some f.shape :=
  C93_collect _ _ rfl (fun _ _ => rfl) hN

/-- C93: for every factor of a model that was built by valid calls, iterating over its shape gives the numbers of labels of its variables, and iterating over the
labels of its variables in a labeling of the model gives these labels, in the order of the variables. -/
theorem C93_factor {N : Nat} {gm : GM V} {p : Problem V} (hb : BuiltModel gm p) {j : Nat} {t : Term V} (ht : p.terms[j]? = some t) (hN : t.vars.length < N)
    {x : List Nat} (hx : p.Labeling x) :
    ∃ f, gm.factors[j]? = some f ∧ collect N (factorShape gm (some f)) = some (restrict p.numLabels t.vars) ∧
      collect N (subset (gm.scope f) x) = some (restrict x t.vars) ∧ collect N (factorLabels gm (some f) x) = some (restrict x t.vars) := by
  have hr := hb.represents
  obtain ⟨f, f1, f2⟩ := DP.factor_at hr.toStores ht
  have hsz := f2.visSize
  have hvar : ∀ i (h : i < t.vars.length), gm.visAt f i = some t.vars[i] := by
    intro i hi
    rw [f2.visAt i (by omega), List.getElem?_eq_getElem hi]
  have hrange : ∀ i (h : i < t.vars.length), t.vars[i] < p.numLabels.length := by
    intro i hi
    have := f2.range _ (List.getElem_mem hi)
    rwa [hr.labels] at this
  refine ⟨f, f1, ?_, ?_, ?_⟩
  · refine C93_collect _ _ (by simp [factorShape, restrict, hsz]) ?_ (by simpa [restrict] using hN)
    intro i hi
    have hi' : i < t.vars.length := by simpa [restrict] using hi
    simp only [factorShape, Option.bind_some, numberOfLabels]
    rw [if_pos (by omega), hvar i hi', Option.bind_some, hr.labels]
    simp [restrict, hi', hrange i hi']
  · refine C93_collect _ _ (by simp [subset, restrict, f2.scope]) ?_ (by simpa [restrict] using hN)
    intro i hi
    have hi' : i < t.vars.length := by simpa [restrict] using hi
    have hv : t.vars[i] < x.length := by rw [hx.1]; exact hrange i hi'
    simp only [subset, f2.scope]
    rw [List.getElem?_eq_getElem hi', Option.bind_some]
    simp [restrict, hi', hv]
  · refine C93_collect _ _ (by simp [factorLabels, restrict, hsz]) ?_ (by simpa [restrict] using hN)
    intro i hi
    have hi' : i < t.vars.length := by simpa [restrict] using hi
    have hv : t.vars[i] < x.length := by rw [hx.1]; exact hrange i hi'
    simp only [factorLabels, Option.bind_some, variableIndex]
    rw [if_pos (by omega), hvar i hi', Option.bind_some]
    simp [restrict, hi', hv]

/-- C93 is violated: the operator[] of FactorVariablesAccessor that is not const returns numbers of labels: iterating over the variables of a factor gives the numbers
of labels of its variables, for every model and factor. -/
theorem C93_violated_variables {N : Nat} {gm : GM V} {p : Problem V} (hb : BuiltModel gm p) {j : Nat} {t : Term V} (ht : p.terms[j]? = some t)
    (hN : t.vars.length < N) : ∃ f, gm.factors[j]? = some f ∧ collect N (factorVariables gm (some f)) = some (restrict p.numLabels t.vars) := by
  have hr := hb.represents
  obtain ⟨f, f1, f2⟩ := DP.factor_at hr.toStores ht
  have hsz := f2.visSize
  refine ⟨f, f1, C93_collect _ _ (by simp [factorVariables, restrict, hsz]) ?_ (by simpa [restrict] using hN)⟩
  intro i hi
  have hi' : i < t.vars.length := by simpa [restrict] using hi
  have hv : t.vars[i] < p.numLabels.length := by
    have := f2.range _ (List.getElem_mem hi')
    rwa [hr.labels] at this
  simp only [factorVariables, Option.bind_some, numberOfLabels]
  rw [if_pos (by omega), f2.visAt i (by omega), List.getElem?_eq_getElem hi', Option.bind_some, hr.labels]
  simp [restrict, hi', hv]

/-- C93 is violated: `operator*` and `operator[]` of a const AccessorIterator return references, but the accessors of the library return values: the reference refers to
an object that is gone. -/
theorem C93_violated_const {N : Nat} (f : Fn V) (i j : Nat) : (⟨functionShape (some f), i⟩ : AIter Nat).derefConst = none ∧
    (⟨functionShape (some f), i⟩ : AIter Nat).atConst N j = none := ⟨rfl, rfl⟩

/-- C93: a SubsequenceIterator that is moved within its sequence, by any operations, is at the position that the moves give; dereferencing it gives the element of the
sequence whose index is at this position, `it[n]` that of the position `n` further, forwards or backwards. -/
theorem C93_subsequence_moves {N : Nat} (seq : List α) (idx : List Nat) (sb ib : Nat) (hN : idx.length < N) : ∀ (ms : List Move) (pos : Nat), pos ≤ idx.length →
    Within idx.length pos ms →
    let it := ms.foldl (SIter.move N) ⟨seq, idx, sb, ib, pos⟩
    it = ⟨seq, idx, sb, ib, (position pos ms).toNat⟩ ∧ 0 ≤ position pos ms ∧ position pos ms ≤ idx.length ∧
      it.deref = (idx[(position pos ms).toNat]?).bind (fun i => seq[i]?) ∧
      ∀ n : Int, 0 ≤ position pos ms + n → position pos ms + n ≤ idx.length → it.at' N n = (idx[(position pos ms + n).toNat]?).bind (fun i => seq[i]?)
  | [], pos, hp, _ => by
    refine ⟨by simp [position], by simp [position], by simpa [position] using hp, by simp [SIter.deref, position], ?_⟩
    intro n h1 h2
    simp only [position, List.map_nil, List.sum_nil, Int.add_zero] at h1 h2
    simp only [List.foldl_nil, SIter.at', position, List.map_nil, List.sum_nil, Int.add_zero]
    have := wrap_of (N := N) h1 (by omega)
    have h3 : wrap N ((pos : Int) + n) = ((pos : Int) + n).toNat := by omega
    rw [h3]
  | m :: ms, pos, hp, hw => by
    obtain ⟨h1, h2, h3⟩ := hw
    obtain ⟨q, hq⟩ : ∃ q : Nat, (q : Int) = pos + m.delta := ⟨((pos : Int) + m.delta).toNat, Int.toNat_of_nonneg h1⟩
    have hwq : wrap N (pos + m.delta) = q := by
      have := wrap_of (N := N) h1 (by omega)
      omega
    have hstep : SIter.move N ⟨seq, idx, sb, ib, pos⟩ m = ⟨seq, idx, sb, ib, q⟩ := by
      cases m <;> simp only [Move.delta] at hq hwq <;>
        simp only [SIter.move, SIter.inc, SIter.postInc, SIter.dec, SIter.postDec, SIter.add, SIter.plus, SIter.sub, SIter.minus, Int.sub_eq_add_neg, hwq]
    rw [List.foldl_cons, hstep]
    have hpos : position pos (m :: ms) = position q ms := by simp only [position, List.map_cons, List.sum_cons]; omega
    rw [hpos]
    exact C93_subsequence_moves seq idx sb ib hN ms q (by omega) (hq ▸ h3)

/-- C93: `it++` and `it--` of a SubsequenceIterator return the iterator as it was. -/
theorem C93_subsequence_postfix (N : Nat) (it : SIter α) : (it.postInc N).1 = it ∧ (it.postDec N).1 = it ∧ (it.postInc N).2 = it.inc N ∧ (it.postDec N).2 = it.dec N :=
  ⟨rfl, rfl, rfl, rfl⟩

/-- C93: SubsequenceIterators of one subsequence compare like their positions, and their difference is the difference of the positions, positive or negative;
iterators of different subsequences are different. -/
theorem C93_subsequence_compare {N : Nat} (a b : SIter α) (ha : 2 * a.pos < N) (hb : 2 * b.pos < N) :
    ((a.sequenceBegin = b.sequenceBegin ∧ a.indicesBegin = b.indicesBegin) → (a.eq b = true ↔ a.pos = b.pos) ∧ (a.lt b = true ↔ a.pos < b.pos) ∧
      (a.gt b = true ↔ b.pos < a.pos) ∧ (a.le b = true ↔ a.pos ≤ b.pos) ∧ (a.ge b = true ↔ b.pos ≤ a.pos)) ∧ a.ne b = !(a.eq b) ∧
    (¬ (a.sequenceBegin = b.sequenceBegin ∧ a.indicesBegin = b.indicesBegin) → a.eq b = false) ∧ a.diff N b = (a.pos : Int) - b.pos := by
  refine ⟨?_, ?_, ?_, ?_⟩
  · rintro ⟨h1, h2⟩
    simp [SIter.eq, SIter.lt, SIter.gt, SIter.le, SIter.ge, h1, h2]
  · simp [SIter.ne, SIter.eq, Bool.not_and, decide_not]
  · intro h
    rw [not_and] at h
    unfold SIter.eq
    by_cases h1 : a.sequenceBegin = b.sequenceBegin
    · simp [h1, h h1]
    · simp [h1]
  · unfold SIter.diff signed
    by_cases hab : b.pos ≤ a.pos
    · have := wrap_of (N := N) (x := (a.pos : Int) - b.pos) (by omega) (by omega)
      rw [if_pos (by omega)]
      exact this
    · have h1 : wrap N ((a.pos : Int) - b.pos) = N - (b.pos - a.pos) := by
        unfold wrap
        have : ((a.pos : Int) - b.pos) % N = (N : Int) - (b.pos - a.pos) := by
          rw [← Int.add_emod_right, Int.emod_eq_of_lt (by omega) (by omega)]
          omega
        rw [this]
        omega
      rw [h1, if_neg (by omega)]
      omega

/-! ### concrete cases -/

example : Within 5 2 [.inc, .postDec, .add 3, .minus 4, .dec, .plus 5] ∧
    position 2 [.inc, .postDec, .add 3, .minus 4, .dec, .plus 5] = 5 := by
  exact ⟨by simp [Within, Move.delta], by decide⟩

example : (⟨subset [3, 0, 2] [5, 6, 7, 8], 1⟩ : AIter Nat).index < 2 ^ 64 ∧ (subset [3, 0, 2] [5, 6, 7, 8]).size ≤ 1 + 7 := by decide

example : collect (2 ^ 64) (subset [3, 0, 2] [5, 6, 7, 8]) = some [8, 5, 7] := by decide +kernel

example : BuiltModel (ExplicitModel.modelAfter 2 ExplicitModel.mixedOps) (builtAfter ExplicitModel.mixedOps).problem ∧
    (∃ t, (builtAfter ExplicitModel.mixedOps).problem.terms[2]? = some t ∧ t.vars.length < 2 ^ 64) := ⟨ExplicitModel.mixed_built, _, rfl, by decide⟩

example : ((⟨[5, 6, 7], [2, 0], 1, 1, 0⟩ : SIter Nat).deref = some 7) ∧
    (⟨[5, 6, 7], [2, 0], 1, 1, 0⟩ : SIter Nat).diff 16 ⟨[5, 6, 7], [2, 0], 1, 1, 2⟩ = -2 := by decide

end Iterators
end OpenGM
