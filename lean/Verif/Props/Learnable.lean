import Verif.Lemmas.Learnable
import Mathlib.Algebra.BigOperators.Ring.Finset
/-
C78: functions with weights: they are linear in the weights, their derivatives are right, and they can be written and read.
-/
namespace OpenGM.Learnable
open Spec Marray Functions

variable {V : Type} [CommRing V]

/-- The derivatives of a function that is linear in its weights are right: adding `t` to weight number `q` adds `t` times the sum of the derivatives by
this weight. -/
theorem C78_derivative {value : List V → Option V} {ids : List Nat} {gradient : Nat → Option V} (h : Linear value ids gradient) :
    ∃ g : List V, (∀ i < ids.length, gradient i = some (g.getD i 0)) ∧
      ∀ (w : List V) (q : Nat) (t : V), (∀ k ∈ ids, k < w.length) → q < w.length →
        ∃ v, value w = some v ∧ value (w.set q (w.getD q 0 + t)) = some (v + t * derivative ids g q) := by
  obtain ⟨g, h1, h2, h3⟩ := h.value_eq
  refine ⟨g, ?_, ?_⟩
  · intro i hi
    rw [h2 i hi, List.getElem?_eq_getElem (by omega), List.getD_eq_getElem?_getD, List.getElem?_eq_getElem (by omega)]
    rfl
  · intro w q t hw hq
    refine ⟨_, h3 w hw, ?_⟩
    rw [h3 _ (by simpa using hw)]
    congr 1
    unfold combination derivative
    rw [Finset.mul_sum, ← Finset.sum_add_distrib]
    apply Finset.sum_congr rfl
    intro i hi
    rw [Finset.mem_range] at hi
    by_cases hc : ids.getD i 0 = q
    · rw [if_pos hc, hc, List.getD_eq_getElem?_getD (l := w.set q _), List.getElem?_set_self hq, Option.getD_some]
      ring
    · rw [if_neg hc, List.getD_eq_getElem?_getD (l := w.set q _), List.getElem?_set_ne (fun e => hc e.symm), ← List.getD_eq_getElem?_getD]
      ring

/-- The result of a call that ends normally. -/
def okOf {α : Type} : Outcome Unit α → Option α
  | .ok x _ => some x
  | _ => none

theorem set_get {mem : Mem V} {k : Nat} (hk : k < mem.length) (w : List V) : (mem.set k w)[k]? = some w := List.getElem?_set_self hk

/-! ### LPotts -/

/-- C78 for LPotts: for different labels the value is the sum of weights times features, for equal labels it is zero. The weights are those of the object
the function was given, as they are at the time of the call. -/
theorem C78_potts (mem : Mem V) (k n : Nat) (ids : List Nat) (feat : List V) (hl : ids.length = feat.length) (w : List V) (hm : mem[k]? = some w)
    (hw : ∀ x ∈ ids, x < w.length) (a b : Nat) :
    (LPotts.make k n ids feat).eval mem [a, b] = some (if a = b then 0 else combination w ids feat) := by
  have h := sumLoop_range (weight := weightAt mem (some k) ids) (gradient := fun i => (LPotts.make k n ids feat).weightGradient i [a, b])
    (W := fun i => w.getD (ids.getD i 0) 0) (G := fun i => if a = b then 0 else feat.getD i 0) ids.length (by
      intro i hi
      refine ⟨weightAt_bound hm hw hi, ?_⟩
      simp only [LPotts.weightGradient, LPotts.make, List.getElem?_cons_zero, List.getElem?_cons_succ]
      by_cases hab : a = b
      · simp [hab]
      · rw [if_pos hab, if_neg hab, List.getElem?_eq_getElem (by omega), List.getD_eq_getElem?_getD, List.getElem?_eq_getElem (by omega)]
        rfl)
  rw [show (LPotts.make k n ids feat).eval mem [a, b] = _ from h]
  congr 1
  by_cases hab : a = b
  · simp [hab]
  · simp only [hab, if_false]; rfl

/-- C78 for LPotts: linear in the weights, with the derivatives `weightGradient`. -/
theorem C78_potts_linear (mem : Mem V) (k n : Nat) (hk : k < mem.length) (ids : List Nat) (feat : List V) (hl : ids.length = feat.length) (a b : Nat) :
    Linear (fun w => (LPotts.make k n ids feat).eval (mem.set k w) [a, b]) ids (fun i => (LPotts.make k n ids feat).weightGradient i [a, b]) := by
  refine ⟨(List.range ids.length).map (fun i => if a = b then 0 else feat.getD i 0), by simp, ?_, ?_⟩
  · intro i hi
    rw [List.getElem?_map, List.getElem?_range hi]
    simp only [LPotts.weightGradient, LPotts.make, List.getElem?_cons_zero, List.getElem?_cons_succ, Option.map_some]
    by_cases hab : a = b
    · simp [hab]
    · rw [if_pos hab, if_neg hab, List.getElem?_eq_getElem (by omega), List.getD_eq_getElem?_getD, List.getElem?_eq_getElem (by omega)]
      rfl
  · intro w hw
    rw [C78_potts (mem.set k w) k n ids feat hl w (set_get hk w) hw a b]
    congr 1
    unfold combination
    by_cases hab : a = b
    · rw [if_pos hab, eq_comm]
      apply Finset.sum_eq_zero
      intro i hi
      rw [Finset.mem_range] at hi
      rw [List.getD_eq_getElem?_getD (l := List.map _ _), List.getElem?_map, List.getElem?_range hi]
      simp [hab]
    · rw [if_neg hab]
      apply Finset.sum_congr rfl
      intro i hi
      rw [Finset.mem_range] at hi
      rw [List.getD_eq_getElem?_getD (l := List.map _ _), List.getElem?_map, List.getElem?_range hi]
      simp [hab]

example : (LPotts.make 0 3 [1, 0, 1] [(2 : Int), 3, 5]).eval [[10, 100]] [0, 2] = some 730 ∧
    (LPotts.make 0 3 [1, 0, 1] [(2 : Int), 3, 5]).eval [[10, 100]] [2, 2] = some 0 ∧
    ((setWeight [[(10 : Int), 100]] 0 1 1).map (fun mem => (LPotts.make 0 3 [1, 0, 1] [(2 : Int), 3, 5]).eval mem [0, 2])) = some (some 37) := by decide

omit [CommRing V] in
/-- C78: `setWeight` changes the weight it is given, of the object it is called on, and no other weight of any object. -/
theorem C78_setWeight (mem : Mem V) (k pi : Nat) (old value : V) (h : getWeight mem (some k) pi = some old) :
    ∃ mem', setWeight mem k pi value = some mem' ∧ getWeight mem' (some k) pi = some value ∧
      ∀ k' pi', (k', pi') ≠ (k, pi) → getWeight mem' (some k') pi' = getWeight mem (some k') pi' := by
  unfold getWeight at h
  simp only at h
  cases hk : mem[k]? with
  | none => rw [hk] at h; simp at h
  | some w =>
    rw [hk] at h
    simp only at h
    have hp : pi < w.length := (List.getElem?_eq_some_iff.mp h).1
    have hkl : k < mem.length := (List.getElem?_eq_some_iff.mp hk).1
    refine ⟨mem.set k (w.set pi value), ?_, ?_, ?_⟩
    · unfold setWeight
      rw [hk]
      simp only
      rw [setAt_of_lt value hp]
      rfl
    · simp [getWeight, hkl, hp]
    · intro k' pi' hne
      unfold getWeight
      simp only [List.getElem?_set]
      by_cases e : k = k'
      · subst e
        rw [if_pos rfl, if_pos hkl, hk]
        simp only [List.getElem?_set]
        rw [if_neg (by intro e'; exact hne (by rw [e']))]
      · rw [if_neg e]

example : getWeight [[(1 : Int), 2], [3, 4]] (some 1) 0 = some 3 := by decide

/-- C78: a Potts function made without weights has no value before `setWeights`; afterwards it is as if made with them. -/
theorem C78_potts_unbound (mem : Mem V) (n : Nat) (ids : List Nat) (feat : List V) (c : List Nat) (hne : ids ≠ []) (k : Nat) :
    (LPotts.makeUnbound n ids feat).eval mem c = none ∧ (LPotts.makeUnbound n ids feat).setWeights k = LPotts.make k n ids feat := by
  refine ⟨?_, rfl⟩
  cases ids with
  | nil => exact absurd rfl hne
  | cons i ids =>
    simp only [LPotts.eval, LPotts.makeUnbound, LPotts.numberOfWeights, List.length_cons, List.range_eq_range', List.range'_succ]
    simp [sumLoop, weightAt, getWeight]

/-- C78 for LPotts: what is written can be read back into any object, which keeps its own pointer to the weights; the announced lengths are right. -/
theorem C78_potts_roundtrip (f dst : LPotts V) (hl : f.weightIDs.length = f.feat.length) (rest : List Nat) (rest' : List V) :
    f.sizes = (f.serialize.1.length, f.serialize.2.length) ∧
      LPotts.deserialize (f.serialize.1 ++ rest) (f.serialize.2 ++ rest') dst = some { f with weights := dst.weights } := by
  refine ⟨by simp [LPotts.sizes, LPotts.serialize]; omega, ?_⟩
  simp only [LPotts.serialize, LPotts.deserialize, List.cons_append, readN_append' f.weightIDs rest hl, readN_append f.feat rest']

example : LPotts.deserialize [3, 2, 1, 0] [(7 : Int), 9] LPotts.default = some (LPotts.makeUnbound 3 [1, 0] [7, 9]) := by rfl

/-! ### LWeightedSumOfFunctions -/

/-- C78 for LWeightedSumOfFunctions: the sum of weights times table entries, and linear in the weights. -/
theorem C78_sum (mem : Mem V) (k : Nat) (hk : k < mem.length) (shape : List Nat) (ids : List Nat) (feat : List (Arr V)) (hl : ids.length = feat.length)
    (hf : ∀ a ∈ feat, ∃ o, a.Ok shape o) (c : List Nat) (hc : InShape shape c) :
    Linear (fun w => (LSum.make shape k ids feat).eval (mem.set k w) c) ids (fun i => (LSum.make shape k ids feat).weightGradient i c) ∧
      ∀ i a, feat[i]? = some a → (LSum.make shape k ids feat).weightGradient i c = a.get c := by
  have hg : ∀ i : Nat, i < feat.length → ∃ x, (LSum.make shape k ids feat).weightGradient i c = some x := by
    intro i hi
    obtain ⟨o, ho⟩ := hf feat[i] (List.getElem_mem hi)
    obtain ⟨x, hx⟩ := ho.get_some hc
    exact ⟨x, by simp [LSum.weightGradient, LSum.make, List.getElem?_eq_getElem hi, hx]⟩
  refine ⟨⟨(List.range ids.length).map (fun i => ((LSum.make shape k ids feat).weightGradient i c).getD 0), by simp, ?_, ?_⟩, ?_⟩
  · intro i hi
    obtain ⟨x, hx⟩ := hg i (by omega)
    rw [List.getElem?_map, List.getElem?_range hi, Option.map_some, hx]
    rfl
  · intro w hw
    refine sumLoop_range (W := fun i => w.getD (ids.getD i 0) 0) (G := fun i => (((List.range ids.length).map
      (fun i => ((LSum.make shape k ids feat).weightGradient i c).getD 0)).getD i 0)) ids.length ?_
    intro i hi
    obtain ⟨x, hx⟩ := hg i (by omega)
    refine ⟨weightAt_bound (set_get hk w) hw hi, ?_⟩
    rw [List.getD_eq_getElem?_getD, List.getElem?_map, List.getElem?_range hi, Option.map_some, hx]
    rfl
  · intro i a ha
    simp [LSum.weightGradient, LSum.make, ha]

/-- Two tables of shape 2 x 2 for the examples. -/
def tables : List (Arr Int) := [Arr.make [2, 2] 3 defaultOrder, ⟨some [1, 2, 3, 4], .dense [2, 2] defaultOrder defaultOrder⟩]

example : ∀ a ∈ tables, ∃ o, a.Ok [2, 2] o := by
  intro a ha
  simp only [tables, List.mem_cons, List.not_mem_nil, or_false] at ha
  rcases ha with rfl | rfl
  · exact ⟨_, (Arr.make_spec [2, 2] 3 defaultOrder).1⟩
  · exact ⟨defaultOrder, rfl, _, rfl, rfl⟩

example : (LSum.make [2, 2] 0 [1, 0] tables).eval [[10, 100]] [1, 0] = some 320 := by decide +kernel

/-- **Violation.** `FunctionSerialization<LWeightedSumOfFunctions>::deserialize` (lweightedsum_of_functions.hxx 225-260) reads into local variables and never
writes the destination: whatever is read, the destination stays as it was. A model with such functions that is loaded from a file has functions without
variables, whose value is 0. -/
theorem C78_violated_sum_roundtrip :
    (∀ (ix : List Nat) (vs : List V) (dst f : LSum V), LSum.deserialize ix vs dst = some f → f = dst) ∧
    ∃ (ix : List Nat) (vs : List Int) (f : LSum Int), (LSum.make [2, 2] 0 [1, 0] tables).serialize = some (ix, vs) ∧
      (LSum.make [2, 2] 0 [1, 0] tables).sizes = (ix.length, vs.length) ∧
      LSum.deserialize ix vs LSum.default = some f ∧ f.shape = [] ∧ f.numberOfWeights = 0 ∧
      (f.setWeights 0).eval [[10, 100]] [1, 0] = some 0 ∧ (LSum.make [2, 2] 0 [1, 0] tables).eval [[10, 100]] [1, 0] = some 320 := by
  constructor
  · intro ix vs dst f h
    unfold LSum.deserialize at h
    repeat' split at h
    all_goals first | (injection h with h; exact h.symm) | simp at h
  · exact ⟨[2, 2, 2, 2, 1, 0], [3, 3, 3, 3, 1, 2, 3, 4], LSum.default, by decide +kernel, by decide +kernel, by rfl, rfl, rfl, by decide +kernel,
      by decide +kernel⟩

/-! ### LUnary -/

/-- From a layout: value and derivatives at a label. -/
theorem linear_of_layout {f : LUnary V} {blocks : List (List Nat × List V)} (h : LUnary.Layout f blocks) {k l : Nat} {b : List Nat × List V}
    (hb : blocks[l]? = some b) (hk : f.weights = some k) (mem : Mem V) (hlt : k < mem.length) (hsub : ∀ x ∈ b.1, x ∈ f.weightIds) :
    Linear (fun w => f.eval (mem.set k w) [l]) f.weightIds
      (fun i => okOf (f.weightGradient i [l])) := by
  obtain ⟨wo, h1, h2, h3⟩ := h.gradient hb
  refine ⟨(List.range f.weightIds.length).map (fun i => if wo ≤ i ∧ i < wo + b.1.length then b.2.getD (i - wo) 0 else 0), by simp, ?_, ?_⟩
  · intro i hi
    rw [List.getElem?_map, List.getElem?_range hi]
    simp only [h3 i hi, Option.map_some, okOf]
  · intro w hw
    rw [h.linear hb hk (set_get hlt w) (fun x hx => hw x (hsub x hx)), LUnary.combination_block h1 h2]

/-- C78 for LUnary made of the features and weights of each label: it throws exactly if the numbers of features and weights of a label differ or a weight is
used twice. Otherwise the value of a label is the sum of its weights times its features; it is linear in the weights. -/
theorem C78_unary_labels (k : Nat) (perLabel : List (List V × List Nat)) :
    (¬((∀ b ∈ perLabel, b.2.length = b.1.length) ∧ ((perLabel.map (·.2)).flatten).Nodup) → LUnary.ofLabels k perLabel = .throw ()) ∧
    ((∀ b ∈ perLabel, b.2.length = b.1.length) ∧ ((perLabel.map (·.2)).flatten).Nodup →
      ∃ f, LUnary.ofLabels k perLabel = .ok f () ∧ f.numberOfLabels = perLabel.length ∧ f.weightIds = (perLabel.map (·.2)).flatten ∧
        ∀ l feats ids, perLabel[l]? = some (feats, ids) →
          (∀ (mem : Mem V) (w : List V), mem[k]? = some w → (∀ x ∈ ids, x < w.length) → f.eval mem [l] = some (combination w ids feats)) ∧
          ∀ mem : Mem V, k < mem.length → Linear (fun w => f.eval (mem.set k w) [l]) f.weightIds
            (fun i => okOf (f.weightGradient i [l]))) := by
  have h := LUnary.ofLabels_eq k perLabel
  constructor
  · intro hc
    rwa [if_neg hc] at h
  · intro hc
    rw [if_pos hc] at h
    obtain ⟨f, h1, h2, h3, _, h5⟩ := h
    refine ⟨f, h1, by rw [h5.labels]; simp, h3, ?_⟩
    intro l feats ids hp
    have hb : (perLabel.map (fun b => (b.2, b.1)))[l]? = some (ids, feats) := by rw [List.getElem?_map, hp]; rfl
    refine ⟨fun mem w hm hw => h5.linear hb h2 hm hw, fun mem hlt => linear_of_layout h5 hb h2 mem hlt ?_⟩
    intro x hx
    rw [h3, List.mem_flatten]
    exact ⟨ids, by rw [List.mem_map]; exact ⟨(feats, ids), List.mem_of_getElem? hp, rfl⟩, hx⟩

example : (okOf (LUnary.ofLabels 0 [([(2 : Int), 3], [4, 1]), ([], []), ([7], [0])])).map (fun f => f.eval [[1, 10, 100, 1000, 10000]] [0]) =
    some (some 20030) := by decide +kernel

/-- C78 for LUnary made of arrays: with arrays of the right shapes, the value of label `l` is the sum of the weights in row `l` times the features; with
`makeFirstEntryConst` label 0 has value 0 and label `l` uses row `l - 1`. Linear in the weights. With other shapes the constructor throws. -/
theorem C78_unary_arrays (k n : Nat) (ids : Arr Nat) (feats : Arr V) (s s' : List Nat) (o o' : Order) (h : ids.Ok s o) (h' : feats.Ok s' o') (const : Bool) :
    (¬(∃ rows nw, s = [rows, nw] ∧ s' = [nw] ∧ rows + (if const then 1 else 0) = n) → LUnary.ofArrays k n ids feats const = .throw ()) ∧
    ∀ rows nw, s = [rows, nw] → s' = [nw] → rows + (if const then 1 else 0) = n →
      ∃ f, LUnary.ofArrays k n ids feats const = .ok f () ∧ f.numberOfLabels = n ∧
        ∀ l < n, ∃ (b : List Nat) (x : List V), b.length = x.length ∧
          (if const = true ∧ l = 0 then b = [] else b.length = nw ∧ ∀ i : Nat, i < nw → ids.get [if const then l - 1 else l, i] = b[i]? ∧ feats.getIndex i = x[i]?) ∧
          (∀ (mem : Mem V) (w : List V), mem[k]? = some w → (∀ y ∈ b, y < w.length) → f.eval mem [l] = some (combination w b x)) ∧
          ∀ mem : Mem V, k < mem.length → Linear (fun w => f.eval (mem.set k w) [l]) f.weightIds
            (fun i => okOf (f.weightGradient i [l])) := by
  constructor
  · intro hne
    have hgs : ids.geometry.shape = s := by rw [h.1, Marray.Geometry.dense_shape]
    have hgs' : feats.geometry.shape = s' := by rw [h'.1, Marray.Geometry.dense_shape]
    unfold LUnary.ofArrays
    rw [hgs, hgs']
    by_cases h2 : s.length = 2
    · obtain ⟨rows, nw, rfl⟩ : ∃ rows nw, s = [rows, nw] := by
        match s, h2 with
        | [a, b], _ => exact ⟨a, b, rfl⟩
      simp only [List.length_cons, List.length_nil, ne_eq, not_true_eq_false, if_false]
      by_cases h3 : rows + (if const then 1 else 0) = n
      · have h4 : s' ≠ [nw] := fun e => hne ⟨rows, nw, rfl, e, h3⟩
        simp [h3, h4]
      · simp [h3]
    · simp [h2]
  · rintro rows nw rfl rfl rfl
    obtain ⟨f, fs, h1, h2, h3, h4, _, h6, h7⟩ := LUnary.ofArrays_ok h h' k const
    refine ⟨f, h1, by rw [h7.labels]; cases const <;> simp, ?_⟩
    intro l hl
    have hmem : ∀ r, r < rows → ∀ x ∈ LUnary.row ids nw r, x ∈ f.weightIds := by
      intro r hr x hx
      rw [h6, List.mem_flatten]
      exact ⟨_, List.mem_map.mpr ⟨r, List.mem_range.mpr hr, rfl⟩, hx⟩
    have key : ∀ b x, ((if const then [([], [])] else []) ++ (List.range rows).map (fun r => (LUnary.row ids nw r, fs)))[l]? = some (b, x) →
        (∀ y ∈ b, y ∈ f.weightIds) →
        (∀ (mem : Mem V) (w : List V), mem[k]? = some w → (∀ y ∈ b, y < w.length) → f.eval mem [l] = some (combination w b x)) ∧
          ∀ mem : Mem V, k < mem.length → Linear (fun w => f.eval (mem.set k w) [l]) f.weightIds
            (fun i => okOf (f.weightGradient i [l])) :=
      fun b x hb hs => ⟨fun mem w hm hw => h7.linear hb h2 hm hw, fun mem hlt => linear_of_layout h7 hb h2 mem hlt hs⟩
    cases const with
    | false =>
      simp only [Bool.false_eq_true, if_false, Nat.add_zero] at hl
      refine ⟨LUnary.row ids nw l, fs, by rw [LUnary.row_length, h4], ?_, key _ _ ?_ (hmem l hl)⟩
      · simp only [Bool.false_eq_true, false_and, if_false]
        exact ⟨LUnary.row_length _ _ _, fun i hi => ⟨LUnary.row_get h hl hi, h3 i hi⟩⟩
      · simp [List.getElem?_range hl]
    | true =>
      simp only [if_true] at hl
      cases l with
      | zero => exact ⟨[], [], rfl, by simp, key _ _ (by simp) (by simp)⟩
      | succ l =>
        refine ⟨LUnary.row ids nw l, fs, by rw [LUnary.row_length, h4], ?_, key _ _ ?_ (hmem l (by omega))⟩
        · simp only [Nat.add_eq_zero_iff, one_ne_zero, and_false, if_false, if_true, Nat.add_sub_cancel]
          exact ⟨LUnary.row_length _ _ _, fun i hi => ⟨LUnary.row_get h (by omega) hi, h3 i hi⟩⟩
        · simp [List.getElem?_range (show l < rows by omega)]

/-- A 2 x 2 array of numbers of weights and two features, for the examples. -/
def idTable : Arr Nat := ⟨some [0, 2, 1, 3], .dense [2, 2] defaultOrder defaultOrder⟩
/-- See `idTable`. -/
def featTable : Arr Int := ⟨some [5, 7], .dense [2] defaultOrder defaultOrder⟩

example : idTable.Ok [2, 2] defaultOrder ∧ featTable.Ok [2] defaultOrder := ⟨⟨rfl, _, rfl, rfl⟩, ⟨rfl, _, rfl, rfl⟩⟩

example : (okOf (LUnary.ofArrays 0 3 idTable featTable true)).map (fun f => [0, 1, 2].map (fun l => f.eval [[1, 10, 100, 1000]] [l])) =
    some [some 0, some 75, some 7500] := by decide +kernel

/-- The functions a user can have: made by a constructor, and bound to weights. -/
inductive LUnary.Built : LUnary V → Prop
  | default : Built LUnary.default
  | labels {k perLabel f} : LUnary.ofLabels k perLabel = .ok f () → Built f
  | arrays {k n ids feats s s' o o' const f} : ids.Ok s o → feats.Ok s' o' → LUnary.ofArrays k n ids feats const = .ok f () → Built f
  | setWeights {f} (k : Nat) : Built f → Built (f.setWeights k)

theorem LUnary.Built.offsets {f : LUnary V} (h : LUnary.Built f) : f.offsets.length = 3 * f.numberOfLabels := by
  induction h with
  | default => rfl
  | @labels k perLabel f hf =>
    obtain ⟨h1, h2⟩ := C78_unary_labels k perLabel
    have h := LUnary.ofLabels_eq k perLabel
    by_cases hc : (∀ b ∈ perLabel, b.2.length = b.1.length) ∧ ((perLabel.map (·.2)).flatten).Nodup
    · rw [if_pos hc] at h
      obtain ⟨f', e1, _, _, _, e5⟩ := h
      rw [hf] at e1
      injection e1 with e1
      subst e1
      exact e5.offsets
    · rw [h1 hc] at hf
      cases hf
  | @arrays k n ids feats s s' o o' const f h h' hf =>
    by_cases hc : ∃ rows nw, s = [rows, nw] ∧ s' = [nw] ∧ rows + (if const then 1 else 0) = n
    · obtain ⟨rows, nw, rfl, rfl, rfl⟩ := hc
      obtain ⟨f', _, e1, _, _, _, _, _, e5⟩ := LUnary.ofArrays_ok h h' k const
      rw [hf] at e1
      injection e1 with e1
      subst e1
      exact e5.offsets
    · rw [(C78_unary_arrays k n ids feats s s' o o' h h' const).1 hc] at hf
      cases hf
  | setWeights k _ ih => exact ih

/-- C78 for LUnary: what is written can be read back into any object, which keeps its own pointer to the weights; the announced lengths are right. -/
theorem C78_unary_roundtrip (f dst : LUnary V) (h : LUnary.Built f) (rest : List Nat) (rest' : List V) :
    f.sizes = (f.serialize.1.length, f.serialize.2.length) ∧
      LUnary.deserialize (f.serialize.1 ++ rest) (f.serialize.2 ++ rest') dst = some { f with weights := dst.weights } := by
  have ho := h.offsets
  refine ⟨by simp [LUnary.sizes, LUnary.serialize]; omega, ?_⟩
  simp only [LUnary.serialize, LUnary.deserialize, List.cons_append, List.append_assoc, readN_append' f.offsets _ ho, readN_append]

example : (okOf (LUnary.ofArrays 0 3 idTable featTable true)).map (fun f => f.serialize) =
    some ([3, 4, 2, 0, 2, 2, 0, 0, 2, 0, 0, 0, 0, 1, 2, 3], [5, 7]) := by decide +kernel

/-! ### Regularizer, constraints, loss -/

/-- C78: the regularizer is made exactly from the numbers -1, 1 and 2, which it reports, and is zero, lambda times the sum of the absolute values, or lambda
times the sum of the squares of the weights. -/
theorem C78_regularizer [LinearOrder V] (n : Int) (lambda : V) (w : List V) :
    (n ≠ -1 ∧ n ≠ 1 ∧ n ≠ 2 → normOf n = .throw ()) ∧
    (n = -1 ∨ n = 1 ∨ n = 2 → ∃ norm, normOf n = .ok norm () ∧ normNumber norm = n ∧
      regularize norm lambda w = if n = -1 then 0 else if n = 1 then lambda * (w.map (fun x => |x|)).sum else lambda * (w.map (fun x => x * x)).sum) := by
  have hfold : ∀ (g : V → V) (w : List V) (v : V), w.foldl (fun val x => val + g x) v = v + (w.map g).sum := by
    intro g w
    induction w with
    | nil => intro v; simp
    | cons x w ih => intro v; simp [ih, add_assoc]
  constructor
  · rintro ⟨h1, h2, h3⟩
    simp [normOf, h1, h2, h3]
  · rintro (rfl | rfl | rfl)
    · exact ⟨.none, rfl, rfl, by simp [regularize]⟩
    · refine ⟨.l1, rfl, rfl, ?_⟩
      simp only [regularize, hfold (fun x => |x|), zero_add]
      rw [mul_comm]; simp
    · refine ⟨.l2, rfl, rfl, ?_⟩
      simp only [regularize]
      rw [hfold (fun x => x ^ 2), zero_add, mul_comm]
      simp [pow_two]

/-- A call of `addConstraint`: indices, coefficients, lower and upper bound. -/
abbrev Call (V : Type) := List Nat × List V × V × V

/-- The object after a sequence of calls of `addConstraint`. -/
def addAll (s : Constraints V) : List (Call V) → Option (Constraints V)
  | [] => some s
  | (indices, coeff, lb, ub) :: rest => (s.addConstraint indices coeff lb ub).bind (fun s => addAll s rest)

omit [CommRing V] in
theorem addAll_eq : ∀ (calls : List (Call V)) (s : Constraints V), (∀ c ∈ calls, c.1.length ≤ c.2.1.length) →
    ∃ s', addAll s calls = some s' ∧ s'.cStart.length = s.cStart.length + calls.length ∧ s'.cSize = s.cSize ++ calls.map (·.1.length) ∧
      s'.cLowerBounds = s.cLowerBounds ∧ s'.cUpperBounds = s.cUpperBounds ∧ s'.wLowerBounds = s.wLowerBounds ∧ s'.wUpperBounds = s.wUpperBounds
  | [], s, _ => ⟨s, rfl, by simp, by simp, rfl, rfl, rfl, rfl⟩
  | (indices, coeff, lb, ub) :: rest, s, h => by
    have h0 := h (indices, coeff, lb, ub) (by simp)
    simp only at h0
    have hr : readN indices.length coeff = some (coeff.take indices.length, coeff.drop indices.length) := by
      have := readN_append' (coeff.take indices.length) (coeff.drop indices.length) (n := indices.length) (by rw [List.length_take]; omega)
      rwa [List.take_append_drop] at this
    obtain ⟨s', g1, g2, g3, g4, g5, g6, g7⟩ := addAll_eq rest { s with
      cSize := s.cSize ++ [indices.length], cStart := s.cStart ++ [s.cOffset], cOffset := s.cOffset + indices.length
      cIndices := s.cIndices ++ indices, cCoeff := s.cCoeff ++ coeff.take indices.length } (fun c hc => h c (by simp [hc]))
    refine ⟨s', ?_, ?_, ?_, g4, g5, g6, g7⟩
    · simp only [addAll, Constraints.addConstraint, hr, Option.bind_some]
      exact g1
    · rw [g2]; simp; omega
    · rw [g3]; simp

omit [CommRing V] in
/-- C78 for the constraints of weights, partial: the number of constraints, their sizes and the bounds of the weights are right after any sequence of calls of
`addConstraint`. Missing: the bounds of the constraints, which cannot be read (see `C78_violated_constraint_bounds`). -/
theorem C78_constraints_partial (lb ub : List V) (hl : lb.length = ub.length) (calls : List (Call V)) (hc : ∀ c ∈ calls, c.1.length ≤ c.2.1.length) :
    ∃ s, addAll (Constraints.ofBounds lb ub) calls = some s ∧ s.numberOfConstraints = calls.length ∧
      (∀ ci : Nat, s.constraintSize ci = calls[ci]?.map (·.1.length)) ∧ ∀ wi : Nat, s.weightLowerBound wi = lb[wi]? ∧ s.weightUpperBound wi = ub[wi]? := by
  obtain ⟨s', g1, g2, g3, _, _, g6, g7⟩ := addAll_eq calls (Constraints.ofBounds lb ub) hc
  refine ⟨s', g1, ?_, ?_, ?_⟩
  · rw [Constraints.numberOfConstraints, g2]; simp [Constraints.ofBounds]
  · intro ci
    rw [Constraints.constraintSize, g3]
    simp [Constraints.ofBounds]
  · intro wi
    rw [Constraints.weightLowerBound, Constraints.weightUpperBound, g6, g7]
    simp [Constraints.ofBounds, hl]

omit [CommRing V] in
/-- **Violation.** `WeightConstraints::addConstraint` (weights.hxx 237-256) ignores its last two arguments: the bounds of a constraint are never stored, and
`constraintLowerBound(ci)` and `constraintUpperBound(ci)` read out of range for every constraint, whatever was added. -/
theorem C78_violated_constraint_bounds (lb ub : List V) (calls : List (Call V)) (hc : ∀ c ∈ calls, c.1.length ≤ c.2.1.length) :
    ∃ s, addAll (Constraints.ofBounds lb ub) calls = some s ∧ s.numberOfConstraints = calls.length ∧
      ∀ ci : Nat, s.constraintLowerBound ci = none ∧ s.constraintUpperBound ci = none := by
  obtain ⟨s', g1, g2, _, g4, g5, _, _⟩ := addAll_eq calls (Constraints.ofBounds lb ub) hc
  refine ⟨s', g1, by rw [Constraints.numberOfConstraints, g2]; simp [Constraints.ofBounds], ?_⟩
  intro ci
  rw [Constraints.constraintLowerBound, Constraints.constraintUpperBound, g4, g5]
  simp [Constraints.ofBounds]

example : ∃ s, addAll (Constraints.ofBounds [(0 : Int), 0] [1, 1]) [([0, 1], [1, -1], 0, 5), ([1], [2], -3, 3)] = some s ∧ s.numberOfConstraints = 2 ∧
    s.constraintSize 0 = some 2 ∧ s.constraintLowerBound 0 = none := ⟨_, rfl, rfl, rfl, rfl⟩

/-- The array of multipliers has the shape the loss needs, for `n` labels. -/
def LossOk (n : Nat) : LossType V → Prop
  | .hamming => True
  | .labelVectorConf a => ∃ o, a.Ok [n] o
  | .labelVectorGt a => ∃ o, a.Ok [n] o
  | .labelMatrix a => ∃ o, a.Ok [n, n] o
  | .l1 => True
  | .l2 => True

/-- C78 for UnaryLossFunction: at the true label every loss is zero, and at another label `l` it is minus the multiplier (Hamming), the multiplier times the
entry of `l`, of the true label or of the pair, or the multiplier times the distance or squared distance of the labels. -/
theorem C78_loss (ty : LossType V) (m : V) (gt n : Nat) (hgt : gt < n)
    (hty : LossOk n ty) :
    lossEval ty m gt [gt] = some 0 ∧ ∀ l < n, l ≠ gt → lossEval ty m gt [l] = match ty with
      | .hamming => some (-m)
      | .labelVectorConf a => (a.getIndex l).map (m * ·)
      | .labelVectorGt a => (a.getIndex gt).map (m * ·)
      | .labelMatrix a => (a.get [l, gt]).map (m * ·)
      | .l1 => some (m * ((max l gt - min l gt : Nat) : V))
      | .l2 => some (m * ((max l gt - min l gt : Nat) : V) ^ 2) := by
  have hidx : ∀ (a : Arr V) (o : Order), a.Ok [n] o → ∃ x, a.getIndex gt = some x := by
    rintro a o ⟨hg, mem, hm, hl⟩
    rw [Arr.Ok.getIndex_eq hg hm]
    exact ⟨_, List.getElem?_eq_getElem (by simp at hl; omega)⟩
  constructor
  · cases ty with
    | hamming => simp [lossEval]
    | labelVectorConf a =>
      obtain ⟨o, ho⟩ := hty
      obtain ⟨x, hx⟩ := hidx a o ho
      simp [lossEval, hx]
    | labelVectorGt a =>
      obtain ⟨o, ho⟩ := hty
      obtain ⟨x, hx⟩ := hidx a o ho
      simp [lossEval, hx]
    | labelMatrix a =>
      obtain ⟨o, ho⟩ := hty
      obtain ⟨x, hx⟩ := ho.get_some (c := [gt, gt]) (by simp [InShape, hgt])
      simp [lossEval, hx]
    | l1 => simp [lossEval]
    | l2 => simp [lossEval]
  · intro l hl hne
    have habs : ((l : Int) - (gt : Int)).natAbs = max l gt - min l gt := by omega
    cases ty with
    | hamming => simp [lossEval, hne]
    | labelVectorConf a => simp [lossEval, hne]
    | labelVectorGt a => simp [lossEval, hne]
    | labelMatrix a => simp [lossEval, hne]
    | l1 => simp only [lossEval, List.getElem?_cons_zero, habs]
    | l2 =>
      simp only [lossEval, List.getElem?_cons_zero]
      rw [← habs]
      generalize (l : Int) - (gt : Int) = z
      rw [← Int.natAbs_sq z, ← Nat.cast_pow, Int.cast_natCast, Nat.cast_pow]

example : lossEval (.l2 : LossType Int) 3 4 [1] = some 27 ∧ lossEval (.hamming : LossType Int) 3 4 [1] = some (-3) ∧
    lossEval (.labelMatrix ⟨some [0, 2, 1, 3], .dense [2, 2] defaultOrder defaultOrder⟩ : LossType Int) 3 0 [1] = some 6 := by decide +kernel

end OpenGM.Learnable
