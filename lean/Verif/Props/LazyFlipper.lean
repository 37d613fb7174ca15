import Verif.Lemmas.LazyLoops
import Verif.Spec.Tags
import Verif.Props.ICM
/-
C49: the class LazyFlipper.
-/
namespace OpenGM
open Spec LazyFlip
variable {V : Type}

/-! ### class Tagging -/

/-- One operation on a Tagging object. -/
def TagOp.run {α : Type} [DecidableEq α] (d : α) (t : Tagging α) : TagOp α → Option (Tagging α)
  | .append k => some (t.append d k)
  | .tag i x => t.set d i x
  | .untag => t.untag d

/-- A history of operations, latest first. -/
def runTags {α : Type} [DecidableEq α] (d : α) (size : Nat) : List (TagOp α) → Option (Tagging α)
  | [] => some (Tagging.make d size)
  | op :: h => (runTags d size h).bind (fun t => TagOp.run d t op)

theorem latestTag_ne {α : Type} {d : α} {size i : Nat} : ∀ (h : List (TagOp α)) x, ValidTags d size h → latestTag i h = some x → x ≠ d ∧ i < tagSize size h
  | [], x, _, e => by simp [latestTag] at e
  | .untag :: _, x, _, e => by simp [latestTag] at e
  | .append k :: h, x, hv, e => by
    obtain ⟨h1, h2⟩ := latestTag_ne h x hv e
    simp only [tagSize]
    exact ⟨h1, by omega⟩
  | .tag j y :: h, x, hv, e => by
    simp only [latestTag] at e
    split at e
    · next hj =>
      subst hj
      obtain rfl := Option.some.inj e
      exact ⟨hv.2.1, hv.1⟩
    · exact latestTag_ne h x hv.2.2 e

/-- C49: after every history of operations on a Tagging object, `tag(i)` is the latest tag given to `i` since the latest `untag()`, or the default, and the
iterators `begin()` and `end()` enclose exactly the indices tagged since the latest `untag()`, each once. -/
theorem C49_tagging {α : Type} [DecidableEq α] (d : α) (size : Nat) (h : List (TagOp α)) (hv : ValidTags d size h) :
    ∃ t, runTags d size h = some t ∧ (∀ i, i < tagSize size h → t.get i = some ((latestTag i h).getD d)) ∧ t.indices.Nodup ∧
      ∀ i, i ∈ t.indices ↔ (latestTag i h).isSome = true := by
  have key : ∃ t, runTags d size h = some t ∧ TagOk d (tagSize size h) t ∧ ∀ i, i < tagSize size h → t.get i = some ((latestTag i h).getD d) := by
    induction h with
    | nil => exact ⟨_, rfl, tagOk_make d size, fun i hi => by simp [Tagging.get, Tagging.make, latestTag, show i < size from hi]⟩
    | cons op h ih =>
      cases op with
      | append k =>
        obtain ⟨t, h1, h2, h3⟩ := ih hv
        refine ⟨t.append d k, by simp only [runTags, h1]; rfl, tagOk_append h2 k, ?_⟩
        intro i hi
        simp only [tagSize] at hi
        simp only [latestTag, Tagging.get, Tagging.append]
        rcases Nat.lt_or_ge i (tagSize size h) with hlt | hge
        · rw [List.getElem?_append_left (by rw [h2.length]; exact hlt)]
          exact h3 i hlt
        · rw [List.getElem?_append_right (by rw [h2.length]; exact hge), h2.length, List.getElem?_replicate, if_pos (by omega)]
          cases e : latestTag i h with
          | none => rfl
          | some x =>
            have := (latestTag_ne h x hv e).2
            omega
      | tag j x =>
        obtain ⟨t, h1, h2, h3⟩ := ih hv.2.2
        obtain ⟨t', e1, e2, e3⟩ := tagOk_set h2 hv.1 hv.2.1
        refine ⟨t', by simp only [runTags, h1]; exact e1, e2, ?_⟩
        intro i hi
        simp only [tagSize] at hi
        simp only [latestTag, Tagging.get]
        rw [e3]
        by_cases hj : j = i
        · subst hj
          rw [if_pos rfl, List.getElem?_set_self (by rw [h2.length]; exact hi)]
          rfl
        · rw [if_neg hj, List.getElem?_set_ne hj]
          exact h3 i hi
      | untag =>
        obtain ⟨t, h1, h2, h3⟩ := ih hv
        have hu := tagOk_untag h2
        refine ⟨_, by simp only [runTags, h1]; exact hu, tagOk_make d _, ?_⟩
        intro i hi
        simp only [tagSize] at hi
        simp only [Tagging.get, Tagging.make, latestTag, tagSize]
        rw [List.getElem?_replicate, if_pos hi]
        rfl
  obtain ⟨t, h1, h2, h3⟩ := key
  refine ⟨t, h1, h3, h2.nodup, ?_⟩
  intro i
  rw [h2.mem]
  constructor
  · rintro ⟨hi, hne⟩
    have := h3 i hi
    unfold Tagging.get at this
    rw [this] at hne
    cases e : latestTag i h with
    | none => rw [e] at hne; exact absurd rfl hne
    | some x => rfl
  · intro hs
    obtain ⟨x, hx⟩ := Option.isSome_iff_exists.mp hs
    obtain ⟨h4, h5⟩ := latestTag_ne h x hv hx
    have := h3 i h5
    unfold Tagging.get at this
    refine ⟨h5, ?_⟩
    rw [this, hx]
    simpa using h4

/-- Tag, untag, append and tag again. -/
example : ValidTags false 2 [.tag 3 true, .tag 0 true, .append 2, .untag, .tag 1 true] := by simp [ValidTags, tagSize]

/-! ### class LazyFlipper -/

/-- The objects that have not run `infer` yet: by the constructor, with or without a starting point, `setStartingPoint` and `setMaxSubgraphSize`. -/
inductive LazyFresh (o : InvOperation V) (gm : GM V) (p : Problem V) (multi : Option Bool) : LF V → Prop
  | construct {lf : LF V} (maxSize : Nat) (start : List Nat) (hs : p.Labeling start ∨ start.length ≠ p.numLabels.length)
      (h : construct o gm maxSize start multi = .ok lf ()) : LazyFresh o gm p multi lf
  | start {lf lf' : LF V} (y : List Nat) (h : LazyFresh o gm p multi lf) (hy : p.Labeling y) (e : setStartingPoint o lf y = some lf') : LazyFresh o gm p multi lf'
  | size {lf lf' : LF V} (k : Nat) (h : LazyFresh o gm p multi lf) (e : setMaxSubgraphSize lf k = .ok () lf') : LazyFresh o gm p multi lf'

/-- All reachable objects: also after any number of calls of `infer`, with any visitors, and `reset`. -/
inductive LazyReachable (o : InvOperation V) (multiplier : Bool) (bop : V → V → Bool) (reevaluate : V → Bool) (gm : GM V) (p : Problem V) (multi : Option Bool) :
    LF V → Prop
  | fresh {lf : LF V} (h : LazyFresh o gm p multi lf) : LazyReachable o multiplier bop reevaluate gm p multi lf
  | start {lf lf' : LF V} (y : List Nat) (h : LazyReachable o multiplier bop reevaluate gm p multi lf) (hy : p.Labeling y)
      (e : setStartingPoint o lf y = some lf') : LazyReachable o multiplier bop reevaluate gm p multi lf'
  | size {lf lf' : LF V} (k : Nat) (h : LazyReachable o multiplier bop reevaluate gm p multi lf) (e : setMaxSubgraphSize lf k = .ok () lf') :
      LazyReachable o multiplier bop reevaluate gm p multi lf'
  | infer {lf lf' : LF V} (visit : Nat → Bool) (h : LazyReachable o multiplier bop reevaluate gm p multi lf)
      (e : infer ⟨o, multiplier, bop, reevaluate, visit⟩ lf = some lf') : LazyReachable o multiplier bop reevaluate gm p multi lf'
  | reset {lf : LF V} (h : LazyReachable o multiplier bop reevaluate gm p multi lf) : LazyReachable o multiplier bop reevaluate gm p multi (reset lf)

/-- What LazyFlipper requires of the model, for the parameter `inferMultilabel_`: at least two labels for each variable, and exactly two if inference for binary
models is chosen. -/
structure LazySuitable (o : InvOperation V) (multiplier : Bool) (bop : V → V → Bool) (reevaluate : V → Bool) (p : Problem V) (multi : Option Bool) : Prop where
  context : IcmContext o bop
  laws : multiplier = true ∨ o.Laws
  two : ∀ k ∈ p.numLabels, 2 ≤ k
  binary : multi = some false → ∀ k ∈ p.numLabels, k = 2
  replaceable : multi ≠ some false → Replaceable o bop reevaluate

namespace LazyFlip
variable {o : InvOperation V} {multiplier : Bool} {bop : V → V → Bool} {reevaluate : V → Bool} {gm : GM V} {p : Problem V} {multi : Option Bool}

theorem mapM_range_get : ∀ x : List Nat, (List.range x.length).mapM (fun v : Nat => x[v]?) = some x
  | [] => rfl
  | a :: x => by
    rw [List.length_cons, List.range_succ_eq_map, List.mapM_cons, List.mapM_map]
    have h : ((fun v : Nat => (a :: x)[v]?) ∘ Nat.succ) = (fun v : Nat => x[v]?) := by funext v; simp
    have ih := mapM_range_get x
    simp only [h, ih]
    rfl

theorem arg_good {lf : LF V} {x : List Nat} (h : Good o gm p lf x) : arg lf = some x := by
  unfold arg
  rw [GM.numberOfVariables, h.tracks.stores.labels, ← h.tracks.labeling.1, h.tracks.state]
  exact mapM_range_get x

theorem construct_spec (hb : BuiltModel gm p) (hpos : ∀ k ∈ p.numLabels, 0 < k) (hn : p.numLabels ≠ []) {maxSize : Nat} (hmax : 1 ≤ maxSize) {start : List Nat}
    (hs : p.Labeling start ∨ start.length ≠ p.numLabels.length) (multi : Option Bool) :
    ∃ lf, construct o gm maxSize start multi = .ok lf () ∧ Good o gm p lf (if start.length = p.numLabels.length then start else List.replicate p.numLabels.length 0) ∧
      lf.multi = multi ∧ lf.maxSize = maxSize ∧ lf.forest = Forest.empty ∧ ∀ i v, ¬ On (lf.act i) v := by
  have hst := hb.represents.toStores
  have hnv : gm.numberOfVariables = p.numLabels.length := by rw [GM.numberOfVariables, hst.labels]
  obtain ⟨m, e, ht, hg⟩ := Movemaker.ofModel_spec o hpos hst
  obtain ⟨adj, a1, a2, a3⟩ := buildAdjacency_spec hst
  have hlen : p.numLabels.length ≠ 0 := by
    intro h
    exact hn (List.length_eq_zero_iff.mp h)
  have htag : (Tagging.make false 0).append false p.numLabels.length = Tagging.make false p.numLabels.length := by simp [Tagging.make, Tagging.append]
  unfold construct
  rw [e]
  simp only
  rw [if_neg (by omega), if_neg (by omega), a1]
  simp only
  rw [hnv, htag]
  have hoff : ∀ (lf : LF V), lf.act0 = Tagging.make false p.numLabels.length → lf.act1 = Tagging.make false p.numLabels.length → ∀ i v, ¬ On (lf.act i) v := by
    intro lf h0 h1 i v
    unfold LF.act
    cases i
    · rw [if_neg (by simp), h0]; exact on_make
    · rw [if_pos rfl, h1]; exact on_make
  have htags : ∀ (lf : LF V), lf.act0 = Tagging.make false p.numLabels.length → lf.act1 = Tagging.make false p.numLabels.length →
      ∀ i, TagOk false p.numLabels.length (lf.act i) := by
    intro lf h0 h1 i
    unfold LF.act
    cases i
    · rw [if_neg (by simp), h0]; exact tagOk_make _ _
    · rw [if_pos rfl, h1]; exact tagOk_make _ _
  by_cases hlab : start.length = p.numLabels.length
  · rw [if_pos hlab, if_pos hlab]
    have hy : p.Labeling start := by
      rcases hs with h | h
      · exact h
      · exact absurd hlab h
    obtain ⟨m', e', ht', hg'⟩ := Movemaker.initializeFrom_spec ht start hy
    rw [e']
    refine ⟨_, rfl, ⟨by simp only; rw [hg', hg], ht', a2, a3, htags _ rfl rfl, wf_empty _ _⟩, rfl, rfl, rfl, hoff _ rfl rfl⟩
  · rw [if_neg hlab, if_neg hlab]
    exact ⟨_, rfl, ⟨hg, ht, a2, a3, htags _ rfl rfl, wf_empty _ _⟩, rfl, rfl, rfl, hoff _ rfl rfl⟩

theorem setStartingPoint_spec {lf : LF V} {x : List Nat} (h : Good o gm p lf x) {y : List Nat} (hy : p.Labeling y) :
    ∃ lf', setStartingPoint o lf y = some lf' ∧ Good o gm p lf' y ∧ Kept lf lf' ∧ lf'.forest = lf.forest ∧ ∀ i, lf'.act i = lf.act i := by
  obtain ⟨m', e', ht', hg'⟩ := Movemaker.initializeFrom_spec h.tracks y hy
  unfold setStartingPoint
  rw [e']
  refine ⟨_, rfl, ⟨by simp only; rw [hg', h.gm], ht', h.adjOk, h.share, ?_, h.wf⟩, ⟨rfl, rfl, rfl⟩, rfl, ?_⟩
  · intro i
    have := h.tag i
    cases i <;> exact this
  · intro i
    cases i <;> rfl

theorem setMaxSubgraphSize_spec {lf lf' : LF V} {x : List Nat} (h : Good o gm p lf x) {k : Nat} (e : setMaxSubgraphSize lf k = .ok () lf') :
    Good o gm p lf' x ∧ lf'.multi = lf.multi ∧ lf'.forest = lf.forest ∧ (∀ i, lf'.act i = lf.act i) ∧ 1 ≤ lf'.maxSize ∧ lf'.m = lf.m := by
  unfold setMaxSubgraphSize at e
  split at e
  · simp at e
  · next hk =>
    obtain rfl := (Outcome.ok.inj e).2
    refine ⟨⟨h.gm, h.tracks, h.adjOk, h.share, ?_, h.wf⟩, rfl, rfl, ?_, by simp only; omega, rfl⟩
    · intro i
      have := h.tag i
      cases i <;> exact this
    · intro i
      cases i <;> rfl

theorem fits (hsuit : LazySuitable o multiplier bop reevaluate p multi) (visit : Nat → Bool) (fuel : Nat) {lf : LF V} {x : List Nat} (h : Good o gm p lf x)
    (hm : lf.multi = multi) : Fits ⟨⟨o, multiplier, bop, reevaluate, visit⟩, fuel⟩ p (useMulti lf) := by
  have hlab : lf.m.gm.numLabels = p.numLabels := h.tracks.stores.labels
  refine ⟨hsuit.context, hsuit.laws, ?_, ?_⟩
  · intro hu
    unfold useMulti at hu
    rw [hm] at hu
    cases hmu : multi with
    | none =>
      rw [hmu] at hu
      simp only at hu
      rw [hlab, List.any_eq_false] at hu
      intro k hk
      have := hu k hk
      simpa using this
    | some b =>
      rw [hmu] at hu
      simp only at hu
      subst hu
      exact hsuit.binary hmu
  · intro hu
    refine ⟨hsuit.replaceable ?_, hsuit.two⟩
    rintro rfl
    unfold useMulti at hu
    rw [hm] at hu
    simp at hu

theorem infer_spec (hsuit : LazySuitable o multiplier bop reevaluate p multi) (hn : p.numLabels ≠ []) (visit : Nat → Bool) {F : Prop}
    (hnever : F → ∀ j, visit j = false) {lf : LF V} {x : List Nat} (h : Good o gm p lf x) (hm : lf.multi = multi) (hmax : 1 ≤ lf.maxSize)
    (hF : F → lf.forest = Forest.empty ∧ ∀ i v, ¬ On (lf.act i) v) :
    ∃ lf' y, infer ⟨o, multiplier, bop, reevaluate, visit⟩ lf = some lf' ∧ Good o gm p lf' y ∧ Kept lf lf' ∧ Improves o.toOperation bop p x y ∧
      (F → ∀ P, Canon p.numLabels.length lf'.adj P → P.length ≤ lf'.maxSize → NI o.toOperation bop p y P) := by
  have hnv : gm.numberOfVariables = p.numLabels.length := by rw [← h.gm, GM.numberOfVariables, h.tracks.stores.labels]
  have hpos : 0 < p.numLabels.length := List.length_pos_of_ne_nil hn
  unfold infer
  simp only
  have hk : inferFuel lf.m.gm lf.forest.nodes.length = inferFuel gm lf.forest.nodes.length := by rw [h.gm]
  rw [hk]
  generalize hfu : inferFuel gm lf.forest.nodes.length = k
  unfold inferFuel at hfu
  simp only at hfu
  rw [hnv] at hfu
  obtain ⟨lf', y, e1, e2, e3, e4, e5⟩ := lengthLoop_spec (F := F) (c := ⟨⟨o, multiplier, bop, reevaluate, visit⟩, k⟩) (gm := gm) (fits hsuit visit k h hm) hnever hpos
    (B := grownBy p.numLabels.length p.numLabels.length lf.forest.nodes.length) (by simp only; omega) k 1 lf x 0 h le_rfl (by omega) (by omega) (by
      rw [Nat.add_sub_cancel]) (by
      intro hFr
      obtain ⟨f1, f2⟩ := hF hFr
      refine ⟨by rw [f1]; exact linear_empty, by rw [f1]; rfl, ?_, f2, ?_, hmax⟩
      · intro P hP hPl
        have := (hP.props h.adjOk).2.2
        have := List.length_pos_of_ne_nil this
        omega
      · intro j P hP
        have := path_lt hP
        rw [f1] at this
        simp [Forest.empty] at this)
  exact ⟨lf', y, e1, e2, e3, e4, e5⟩

end LazyFlip

section
variable {o : InvOperation V} {multiplier : Bool} {bop : V → V → Bool} {reevaluate : V → Bool} {gm : GM V} {p : Problem V} {multi : Option Bool}

theorem LazyFresh.good (hb : BuiltModel gm p) (hpos : ∀ k ∈ p.numLabels, 0 < k) (hn : p.numLabels ≠ []) {lf : LF V} (h : LazyFresh o gm p multi lf) :
    ∃ x, Good o gm p lf x ∧ lf.multi = multi ∧ 1 ≤ lf.maxSize ∧ lf.forest = Forest.empty ∧ ∀ i v, ¬ On (lf.act i) v := by
  induction h with
  | construct maxSize start hs h =>
    have hmax : 1 ≤ maxSize := by
      by_contra hlt
      unfold LazyFlip.construct at h
      split at h
      · simp at h
      · split at h
        · simp at h
        · rw [if_pos (by omega)] at h
          simp at h
    obtain ⟨lf', e1, e2, e3, e4, e5, e6⟩ := construct_spec (o := o) hb hpos hn hmax hs multi
    rw [h] at e1
    obtain rfl := (Outcome.ok.inj e1).1
    exact ⟨_, e2, e3, by omega, e5, e6⟩
  | start y h hy e ih =>
    obtain ⟨x, h1, h2, h3, h4, h5⟩ := ih
    obtain ⟨lf', e1, e2, e3, e4, e5⟩ := setStartingPoint_spec h1 hy
    rw [e] at e1
    obtain rfl := Option.some.inj e1
    exact ⟨y, e2, by rw [e3.multi, h2], by rw [e3.maxSize]; exact h3, by rw [e4, h4], fun i v => by rw [e5]; exact h5 i v⟩
  | size k h e ih =>
    obtain ⟨x, h1, h2, h3, h4, h5⟩ := ih
    obtain ⟨e1, e2, e3, e4, e5, _⟩ := setMaxSubgraphSize_spec h1 e
    exact ⟨x, e1, by rw [e2, h2], e5, by rw [e3, h4], fun i v => by rw [e4]; exact h5 i v⟩

theorem LazyReachable.good (hsuit : LazySuitable o multiplier bop reevaluate p multi) (hb : BuiltModel gm p) (hn : p.numLabels ≠ []) {lf : LF V}
    (h : LazyReachable o multiplier bop reevaluate gm p multi lf) : ∃ x, Good o gm p lf x ∧ lf.multi = multi ∧ 1 ≤ lf.maxSize := by
  induction h with
  | fresh h =>
    obtain ⟨x, h1, h2, h3, _⟩ := h.good hb (fun k hk => by have := hsuit.two k hk; omega) hn
    exact ⟨x, h1, h2, h3⟩
  | start y h hy e ih =>
    obtain ⟨x, h1, h2, h3⟩ := ih
    obtain ⟨lf', e1, e2, e3, _⟩ := setStartingPoint_spec h1 hy
    rw [e] at e1
    obtain rfl := Option.some.inj e1
    exact ⟨y, e2, by rw [e3.multi, h2], by rw [e3.maxSize]; exact h3⟩
  | size k h e ih =>
    obtain ⟨x, h1, h2, h3⟩ := ih
    obtain ⟨e1, e2, _, _, e5, _⟩ := setMaxSubgraphSize_spec h1 e
    exact ⟨x, e1, by rw [e2, h2], e5⟩
  | infer visit h e ih =>
    obtain ⟨x, h1, h2, h3⟩ := ih
    obtain ⟨lf', y, e1, e2, e3, _⟩ := infer_spec hsuit hn visit (F := False) (fun h => h.elim) h1 h2 h3 (fun h => h.elim)
    rw [e] at e1
    obtain rfl := Option.some.inj e1
    exact ⟨y, e2, by rw [e3.multi, h2], by rw [e3.maxSize]; exact h3⟩
  | reset h ih => exact ih

/-- C49: the constructor succeeds, and the object starts at the given starting point, or with all labels 0 if there is none. -/
theorem C49_construct (hb : BuiltModel gm p) (hpos : ∀ k ∈ p.numLabels, 0 < k) (hn : p.numLabels ≠ []) (maxSize : Nat) (hmax : 1 ≤ maxSize) (start : List Nat)
    (hs : p.Labeling start ∨ start.length ≠ p.numLabels.length) :
    ∃ lf, construct o gm maxSize start multi = .ok lf () ∧ LazyFresh o gm p multi lf ∧ lf.maxSize = maxSize ∧
      arg lf = some (if start.length = p.numLabels.length then start else List.replicate p.numLabels.length 0) := by
  obtain ⟨lf, e1, e2, _, e4, _⟩ := construct_spec (o := o) hb hpos hn hmax hs multi
  refine ⟨lf, e1, .construct maxSize start hs e1, e4, ?_⟩
  exact arg_good e2

/-- C49: on every reachable object `setStartingPoint` with a labeling succeeds and makes it the answer of `arg()`; `setMaxSubgraphSize` with a positive number is kept
and does not change the labeling, and with 0 it throws. -/
theorem C49_setters (hsuit : LazySuitable o multiplier bop reevaluate p multi) (hb : BuiltModel gm p) (hn : p.numLabels ≠ []) (lf : LF V)
    (h : LazyReachable o multiplier bop reevaluate gm p multi lf) :
    (∀ y, p.Labeling y → ∃ lf', setStartingPoint o lf y = some lf' ∧ arg lf' = some y ∧ lf'.maxSize = lf.maxSize) ∧
    (∀ k, 1 ≤ k → ∃ lf', setMaxSubgraphSize lf k = .ok () lf' ∧ lf'.maxSize = k ∧ arg lf' = arg lf ∧ value lf' = value lf) ∧
    setMaxSubgraphSize lf 0 = .throw lf := by
  obtain ⟨x, h1, _, _⟩ := h.good hsuit hb hn
  refine ⟨?_, ?_, rfl⟩
  · intro y hy
    obtain ⟨lf', e1, e2, e3, _⟩ := setStartingPoint_spec h1 hy
    exact ⟨lf', e1, arg_good e2, e3.maxSize⟩
  · intro k hk
    unfold setMaxSubgraphSize
    rw [if_neg (by omega)]
    exact ⟨_, rfl, rfl, rfl, rfl⟩

/-- C49 (partial): on every reachable object and with every visitor `infer` ends. Then `value()` is what `evaluate` returns for `arg()`, and the labeling is the one before
the call or a strictly better one. Missing: models with a variable that has one label, where it is false (`C49_violated_singleLabel`). -/
theorem C49_infer_partial (hsuit : LazySuitable o multiplier bop reevaluate p multi) (hb : BuiltModel gm p) (hn : p.numLabels ≠ []) (visit : Nat → Bool) (lf : LF V)
    (h : LazyReachable o multiplier bop reevaluate gm p multi lf) :
    ∃ lf' x y, infer ⟨o, multiplier, bop, reevaluate, visit⟩ lf = some lf' ∧ LazyReachable o multiplier bop reevaluate gm p multi lf' ∧
      arg lf = some x ∧ gm.evaluate o.toOperation x = some (value lf) ∧
      arg lf' = some y ∧ p.Labeling y ∧ gm.evaluate o.toOperation y = some (value lf') ∧ (y = x ∨ bop (value lf') (value lf) = true) := by
  obtain ⟨x, h1, h2, h3⟩ := h.good hsuit hb hn
  obtain ⟨lf', y, e1, e2, e3, e4, _⟩ := infer_spec hsuit hn visit (F := False) (fun h => h.elim) h1 h2 h3 (fun h => h.elim)
  have hst := hb.represents.toStores
  have harg : ∀ (l : LF V) z, Good o gm p l z → arg l = some z := fun l z hg => arg_good hg
  have hval : ∀ (l : LF V) z, Good o gm p l z → value l = p.energy o.toOperation z := by
    intro l z hg
    rw [value, Movemaker.value, hg.tracks.energy]
  refine ⟨lf', x, y, e1, .infer visit h e1, harg _ _ h1, ?_, harg _ _ e2, e2.tracks.labeling, ?_, ?_⟩
  · rw [evaluate_spec _ hst _ h1.tracks.labeling, hval _ _ h1]
  · rw [evaluate_spec _ hst _ e2.tracks.labeling, hval _ _ e2]
  · rw [hval _ _ e2, hval _ _ h1]
    exact e4

/-- C49 (partial): when the first call of `infer` ends without being stopped by the visitor, no labeling that differs from the result on at most `maxSubgraphSize()`
variables is better. Missing: later calls, where it is false (`C49_violated_second`), and variables with one label. -/
theorem C49_optimal_partial (hsuit : LazySuitable o multiplier bop reevaluate p multi) (hcomp : Comparable bop) (hb : BuiltModel gm p) (hn : p.numLabels ≠ []) (lf : LF V)
    (h : LazyFresh o gm p multi lf) :
    ∃ lf' y, infer ⟨o, multiplier, bop, reevaluate, fun _ => false⟩ lf = some lf' ∧ arg lf' = some y ∧ lf'.maxSize = lf.maxSize ∧
      ∀ z, p.Labeling z → distance y z ≤ lf.maxSize → bop (p.energy o.toOperation z) (p.energy o.toOperation y) = false := by
  obtain ⟨x, h1, h2, h3, h4, h5⟩ := h.good hb (fun k hk => by have := hsuit.two k hk; omega) hn
  obtain ⟨lf', y, e1, e2, e3, _, e5⟩ := infer_spec hsuit hn (fun _ => false) (F := True) (fun _ _ => rfl) h1 h2 h3 (fun _ => ⟨h4, h5⟩)
  refine ⟨lf', y, e1, ?_, e3.maxSize, ?_⟩
  · exact arg_good e2
  · intro z hz hd
    exact ni_all hsuit.context hcomp e2.adjOk e2.share e2.tracks.labeling (k := lf.maxSize) (fun P hP hPl => e5 trivial P hP (by rw [e3.maxSize]; exact hPl)) _ z hz le_rfl hd

end

/-! ### Concrete cases -/

/-- Two binary variables with one factor: 1 for (0,0), 0 for (1,1) and 2 otherwise. -/
def lazyOps : List (BuildOp Int) :=
  [.addVariable 2, .addVariable 2,
   .addFunction 0 ⟨[2, 2], fun c => match c with | [0, 0] => 1 | [1, 1] => 0 | _ => 2⟩, .addFactor 0 [0, 1]]

theorem lazyOps_valid : ValidHistory 1 Built.empty lazyOps := by
  simp [lazyOps, ValidHistory, BuildOp.Valid, BuildOp.apply, Built.empty, restrict]

/-- Minimizer with Adder on integers: the context of the theorems, for models with at least two labels per variable. -/
theorem minAdd_lazy {p : Problem Int} (h : ∀ k ∈ p.numLabels, 2 ≤ k) {multi : Option Bool} (hb : multi = some false → ∀ k ∈ p.numLabels, k = 2) :
    LazySuitable intAddSub false (fun a b => decide (a < b)) (fun _ => false) p multi :=
  ⟨minAdd_icm, .inr intAddSub_laws, h, hb, fun _ => minAdd_context.replace⟩

theorem minAdd_comparable : Comparable (fun a b : Int => decide (a < b)) := by
  intro a b c
  simp only [decide_eq_true_eq]
  omega

/-- The hypotheses of `C49_infer_partial` and `C49_optimal_partial` are met by this model, from (0,0) and with subgraphs of at most 2 variables, for each of the three values of the
parameter `inferMultilabel_`. -/
example (multi : Option Bool) : ∃ gm lf, BuiltModel gm (builtAfter lazyOps).problem ∧ (builtAfter lazyOps).problem.numLabels ≠ [] ∧
    LazySuitable intAddSub false (fun a b => decide (a < b)) (fun _ => false) (builtAfter lazyOps).problem multi ∧
    LazyFresh intAddSub gm (builtAfter lazyOps).problem multi lf ∧ lf.maxSize = 2 ∧
    LazyReachable intAddSub false (fun a b => decide (a < b)) (fun _ => false) gm (builtAfter lazyOps).problem multi lf := by
  obtain ⟨gm, hb⟩ := builtModel_exists lazyOps_valid
  have hnl : (builtAfter lazyOps).problem.numLabels = [2, 2] := by decide
  obtain ⟨lf, _, h2, h3, _⟩ := C49_construct (o := intAddSub) (multi := multi) hb (by rw [hnl]; decide) (by rw [hnl]; decide) 2 (by decide) [] (.inr (by rw [hnl]; decide))
  exact ⟨gm, lf, hb, by rw [hnl]; decide, minAdd_lazy (by rw [hnl]; decide) (fun _ => by rw [hnl]; decide), h2, h3, .fresh h2⟩

/-! ### Violations -/

/-- C49 is violated for a second call of `infer`: on this model the first call goes from (0,0) to (1,1), but when `setStartingPoint` and `reset` are called and `infer`
is called again, it stays at (0,0), although (1,1) differs from it on 2 = `maxSubgraphSize()` variables and is better. -/
theorem C49_violated_second : ∃ (gm : GM Int) (lf0 lf1 lf2 lf3 : LF Int), BuiltModel gm (builtAfter lazyOps).problem ∧
    construct intAddSub gm 2 [0, 0] none = .ok lf0 () ∧
    infer ⟨intAddSub, false, fun a b => decide (a < b), fun _ => false, fun _ => false⟩ lf0 = some lf1 ∧ arg lf1 = some [1, 1] ∧
    setStartingPoint intAddSub lf1 [0, 0] = some lf2 ∧
    infer ⟨intAddSub, false, fun a b => decide (a < b), fun _ => false, fun _ => false⟩ (reset lf2) = some lf3 ∧ arg lf3 = some [0, 0] ∧ lf3.maxSize = 2 ∧
    distance [0, 0] [1, 1] = 2 ∧ (builtAfter lazyOps).problem.Labeling [1, 1] ∧
    (builtAfter lazyOps).problem.energy intAdd [1, 1] < (builtAfter lazyOps).problem.energy intAdd [0, 0] := by
  obtain ⟨c, h1⟩ : ∃ c, (Client.init 1).run (fun _ _ => false) lazyOps = .ok () c := ⟨_, rfl⟩
  refine ⟨c.gm, ?_⟩
  cases h1
  exact ⟨_, _, _, _, ⟨1, _, lazyOps, _, eqvSound_false, lazyOps_valid, rfl, rfl, rfl⟩, rfl, rfl, rfl, rfl, rfl, rfl, rfl, by decide,
    by rw [← Icm.mem_labelings]; decide, by decide⟩

/-- A variable with one label and three binary ones. -/
def lazySingleOps : List (BuildOp Int) :=
  [.addVariable 1, .addVariable 2, .addVariable 2, .addVariable 2,
   .addFunction 0 ⟨[1, 2], fun _ => 0⟩, .addFactor 0 [0, 3],
   .addFunction 0 ⟨[2, 2], fun _ => 0⟩, .addFactor 1 [1, 2],
   .addFunction 0 ⟨[2, 2], fun c => match c with | [0, 0] => 0 | [1, 1] => -5 | _ => 5⟩, .addFactor 2 [2, 3]]

theorem lazySingleOps_valid : ValidHistory 1 Built.empty lazySingleOps := by
  simp [lazySingleOps, ValidHistory, BuildOp.Valid, BuildOp.apply, Built.empty, restrict]

/-- C49 is violated for models with a variable that has one label: when the visitor ends `infer` after the first improvement (its third call), the object answers
`arg()` = (0,1,1,0) and `value()` = -5, but `evaluate` gives 5, which is worse than the value 0 of the labeling at the start. -/
theorem C49_violated_singleLabel : ∃ (gm : GM Int) (lf0 lf1 : LF Int), BuiltModel gm (builtAfter lazySingleOps).problem ∧
    construct intAddSub gm 2 [0, 0, 0, 0] none = .ok lf0 () ∧ value lf0 = 0 ∧
    infer ⟨intAddSub, false, fun a b => decide (a < b), fun _ => false, fun k => k == 2⟩ lf0 = some lf1 ∧
    arg lf1 = some [0, 1, 1, 0] ∧ value lf1 = -5 ∧ gm.evaluate intAdd [0, 1, 1, 0] = some 5 := by
  obtain ⟨c, h1⟩ : ∃ c, (Client.init 1).run (fun _ _ => false) lazySingleOps = .ok () c := ⟨_, rfl⟩
  refine ⟨c.gm, ?_⟩
  cases h1
  exact ⟨_, _, ⟨1, _, lazySingleOps, _, eqvSound_false, lazySingleOps_valid, rfl, rfl, rfl⟩, rfl, rfl, rfl, rfl, rfl, rfl⟩

end OpenGM
