import Verif.Prelude
import Mathlib.Data.List.Forall2
import Verif.Model.Client
import Verif.Lemmas.RandomAccessSet
/-
Invariant of GraphicalModel and its preservation.
-/
namespace OpenGM
open Spec

theorem natLess_eq : natLess = (RandomAccessSet.less : Nat → Nat → Bool) := by
  funext a b; simp [natLess, RandomAccessSet.less]

/-- Inserting a key larger than all keys appends it. -/
theorem insert_gt (s : List Nat) (x : Nat) (h : ∀ e ∈ s, e < x) :
    (RandomAccessSet.insert natLess s x).1 = s ++ [x] := by
  rw [natLess_eq]
  induction s with
  | nil => simp [RandomAccessSet.insert_nil]
  | cons a v ih =>
    have ha : a < x := h a (by simp)
    have := ih (fun e he => h e (by simp [he]))
    rw [RandomAccessSet.insert_cons]
    simp [ha, this]

/-- The factor record `f` of `gm` is term `t`. -/
structure FactorMatches {V : Type} (gm : GM V) (f : FactorRec) (t : Term V) : Prop where
  bound : f.visStart + f.visSize ≤ gm.factorsVis.length
  scope : gm.scope f = t.vars
  sorted : t.vars.Pairwise (· < ·)
  range : ∀ v ∈ t.vars, v < gm.numLabels.length
  fn : ∃ fn, gm.getFunction ⟨f.functionIndex, f.functionType⟩ = some fn ∧
    fn.shape = restrict gm.numLabels t.vars ∧ ∀ c, InShape fn.shape c → fn.table c = t.table c

/-- Term `j` mentions variable `v`. -/
def mentions {V : Type} (terms : List (Term V)) (v j : Nat) : Bool :=
  match terms[j]? with
  | some t => decide (v ∈ t.vars)
  | none => false

/-- The part of the invariant that does not concern the adjacency structure. -/
structure Stores {V : Type} (gm : GM V) (p : Problem V) : Prop where
  labels : gm.numLabels = p.numLabels
  adjLen : gm.adj.length = gm.numLabels.length
  factors : List.Forall₂ (FactorMatches gm) gm.factors p.terms
  order : gm.order = (p.terms.map (fun t => t.vars.length)).foldl max 0

/-- The state of a model object represents problem `p`. -/
structure Represents {V : Type} (gm : GM V) (p : Problem V) : Prop extends Stores gm p where
  adj : ∀ v, v < gm.numLabels.length →
    gm.adj[v]? = some ((List.range p.terms.length).filter (mentions p.terms v))

variable {V : Type}

namespace FactorMatches

theorem visSize {gm : GM V} {f : FactorRec} {t : Term V} (h : FactorMatches gm f t) :
    f.visSize = t.vars.length := by
  have := congrArg List.length h.scope
  have hb := h.bound
  simp [GM.scope] at this
  omega

theorem visAt {gm : GM V} {f : FactorRec} {t : Term V} (h : FactorMatches gm f t) (i : Nat)
    (hi : i < f.visSize) : gm.visAt f i = t.vars[i]? := by
  have := congrArg (fun l => l[i]?) h.scope
  simp only [GM.scope, List.getElem?_take, hi, if_true, List.getElem?_drop] at this
  simpa [GM.visAt] using this

end FactorMatches

theorem restrict_append (l : List Nat) (n : Nat) (vs : List Nat) (h : ∀ v ∈ vs, v < l.length) :
    restrict (l ++ [n]) vs = restrict l vs := by
  unfold restrict
  apply List.map_congr_left
  intro v hv
  have := h v hv
  simp [List.getElem?_append_left this]

/-- Getting a function is unaffected by appending functions. -/
theorem getFunction_set (gm : GM V) (ty : Nat) (tbl : List (Fn V)) (f fn : Fn V) (id : FunctionIdentifier)
    (ht : gm.functions[ty]? = some tbl) (hg : gm.getFunction id = some fn) :
    GM.getFunction { gm with functions := gm.functions.set ty (tbl ++ [f]) } id = some fn := by
  unfold GM.getFunction at *
  simp only [Option.bind_eq_some_iff] at *
  obtain ⟨tb, h1, h2⟩ := hg
  by_cases hty : ty = id.functionType
  · subst hty
    rw [ht] at h1
    obtain rfl := Option.some.inj h1
    have hlt := (List.getElem?_eq_some_iff.mp ht).1
    refine ⟨tbl ++ [f], by simp [hlt], ?_⟩
    rw [List.getElem?_append_left (List.getElem?_eq_some_iff.mp h2).1]
    exact h2
  · refine ⟨tb, by simp [List.getElem?_set_ne hty, h1], h2⟩

theorem getFunction_new (gm : GM V) (ty : Nat) (tbl : List (Fn V)) (f : Fn V)
    (ht : gm.functions[ty]? = some tbl) :
    GM.getFunction { gm with functions := gm.functions.set ty (tbl ++ [f]) } ⟨tbl.length, ty⟩ = some f := by
  have hlt := (List.getElem?_eq_some_iff.mp ht).1
  simp [GM.getFunction, hlt]

/-! ### `addVariable`, functions -/

theorem stores_addVariable {gm : GM V} {p : Problem V} (h : Stores gm p) (n : Nat) :
    Stores (gm.addVariable n).2 { p with numLabels := p.numLabels ++ [n] } where
  labels := by simp [GM.addVariable, h.labels]
  adjLen := by simp [GM.addVariable, h.adjLen]
  order := by simp [GM.addVariable, h.order]
  factors := by
    have : (gm.addVariable n).2.factors = gm.factors := rfl
    rw [this]
    refine List.Forall₂.imp ?_ h.factors
    intro f t hm
    refine ⟨hm.bound, hm.scope, hm.sorted, ?_, ?_⟩
    · intro v hv
      have := hm.range v hv
      simp [GM.addVariable]; omega
    · obtain ⟨fn, h1, h2, h3⟩ := hm.fn
      refine ⟨fn, h1, ?_, h3⟩
      simp only [GM.addVariable]
      rw [restrict_append _ _ _ hm.range, h2]

theorem represents_addVariable {gm : GM V} {p : Problem V} (h : Represents gm p) (n : Nat) :
    Represents (gm.addVariable n).2 { p with numLabels := p.numLabels ++ [n] } where
  toStores := stores_addVariable h.toStores n
  adj := by
    intro v hv
    simp only [GM.addVariable] at hv ⊢
    rw [List.length_append] at hv
    by_cases hlt : v < gm.numLabels.length
    · rw [List.getElem?_append_left (by rw [h.adjLen]; exact hlt)]
      exact h.adj v hlt
    · have hv' : v = gm.adj.length := by rw [h.adjLen]; simp at hv; omega
      rw [hv']
      simp only [List.getElem?_append_right (Nat.le_refl _), Nat.sub_self, List.getElem?_cons_zero, Option.some.injEq]
      symm
      rw [List.filter_eq_nil_iff]
      intro j hj
      unfold mentions
      cases htj : p.terms[j]? with
      | none => simp
      | some t =>
        have hlt2 := (List.getElem?_eq_some_iff.mp htj).1
        have hlen := h.factors.length_eq
        have hm : FactorMatches gm (gm.factors[j]'(by omega)) t := by
          have := h.factors.get (i := j) (by omega) hlt2
          have e := (List.getElem?_eq_some_iff.mp htj).2
          simp only [List.get_eq_getElem] at this
          rwa [e] at this
        have := hm.range
        simp only [decide_eq_true_eq]
        intro hmem
        have := this _ hmem
        rw [h.adjLen] at this; omega

theorem stores_functions {gm : GM V} {p : Problem V} (h : Stores gm p) (ty : Nat) (tbl : List (Fn V)) (f : Fn V)
    (ht : gm.functions[ty]? = some tbl) :
    Stores { gm with functions := gm.functions.set ty (tbl ++ [f]) } p where
  labels := h.labels
  adjLen := h.adjLen
  order := h.order
  factors := by
    refine List.Forall₂.imp ?_ h.factors
    intro g t hm
    obtain ⟨fn, h1, h2, h3⟩ := hm.fn
    exact ⟨hm.bound, hm.scope, hm.sorted, hm.range, fn, getFunction_set gm ty tbl f fn _ ht h1, h2, h3⟩

theorem represents_functions {gm : GM V} {p : Problem V} (h : Represents gm p) (ty : Nat) (tbl : List (Fn V)) (f : Fn V)
    (ht : gm.functions[ty]? = some tbl) :
    Represents { gm with functions := gm.functions.set ty (tbl ++ [f]) } p where
  toStores := stores_functions h.toStores ty tbl f ht
  adj := h.adj

theorem findFunction_spec (eqv : Fn V → Fn V → Bool) (f : Fn V) (tbl : List (Fn V)) (i k : Nat)
    (h : GM.findFunction eqv f tbl i = some k) :
    i ≤ k ∧ ∃ g, tbl[k - i]? = some g ∧ eqv f g = true := by
  induction tbl generalizing i with
  | nil => simp [GM.findFunction] at h
  | cons g rest ih =>
    unfold GM.findFunction at h
    split at h
    · rename_i he
      simp only [Option.some.injEq] at h
      subst h
      exact ⟨le_refl _, g, by simp, he⟩
    · obtain ⟨h1, g', h2, h3⟩ := ih _ h
      refine ⟨by omega, g', ?_, h3⟩
      have : k - i = (k - (i + 1)) + 1 := by omega
      rw [this, List.getElem?_cons_succ]; exact h2

theorem findFunction_none (eqv : Fn V → Fn V → Bool) (f : Fn V) (tbl : List (Fn V)) (i : Nat) :
    GM.findFunction eqv f tbl i = none ↔ ∀ g ∈ tbl, eqv f g = false := by
  induction tbl generalizing i with
  | nil => simp [GM.findFunction]
  | cons g rest ih =>
    unfold GM.findFunction
    split
    · rename_i he; simp [he]
    · rename_i he; simp [ih, he]

/-! ### `addFactor` -/

/-- Pushing a factor record keeps the earlier ones and adds the new one. -/
theorem stores_pushFactor {gm : GM V} {p : Problem V} (h : Stores gm p) (fid : FunctionIdentifier) (t : Term V)
    (fn : Fn V) (hs : t.vars.Pairwise (· < ·)) (hr : ∀ v ∈ t.vars, v < gm.numLabels.length)
    (hf : gm.getFunction fid = some fn) (hsh : fn.shape = restrict gm.numLabels t.vars)
    (htab : ∀ c, InShape fn.shape c → fn.table c = t.table c) :
    Stores (gm.pushFactor fid t.vars).1 { p with terms := p.terms ++ [t] } ∧
      FactorMatches (gm.pushFactor fid t.vars).1 (gm.pushFactor fid t.vars).2 t := by
  have hnew : FactorMatches (gm.pushFactor fid t.vars).1 (gm.pushFactor fid t.vars).2 t := by
    refine ⟨?_, ?_, hs, hr, fn, hf, hsh, htab⟩
    · simp [GM.pushFactor]
    · simp [GM.pushFactor, GM.scope]
  refine ⟨⟨h.labels, h.adjLen, ?_, ?_⟩, hnew⟩
  · refine List.rel_append (R := FactorMatches _) ?_ (List.Forall₂.cons hnew List.Forall₂.nil)
    refine List.Forall₂.imp ?_ h.factors
    intro f t' hm
    refine ⟨?_, ?_, hm.sorted, hm.range, hm.fn⟩
    · have := hm.bound
      simp [GM.pushFactor]; omega
    · rw [← hm.scope]
      have hb := hm.bound
      simp only [GM.pushFactor, GM.scope]
      rw [List.drop_append_of_le_length (by omega), List.take_append_of_le_length]
      simp; omega
  · have := h.order
    simp [GM.pushFactor, this, List.foldl_append]

/-- The loop of `addFactor` for a valid factor: it inserts the factor index into the set of each variable. -/
theorem addFactorLoop_ok (t : Term V) (f : FactorRec) (idx : Nat) :
    ∀ (k i : Nat) (gm : GM V), FactorMatches gm f t → gm.adj.length = gm.numLabels.length → i + k = f.visSize →
    ∃ adj', GM.addFactorLoop gm f idx i k = .ok idx { gm with adj := adj' } ∧ adj'.length = gm.adj.length ∧
      ∀ v, adj'[v]? = if v ∈ t.vars.drop i then (gm.adj[v]?).map (fun s => (RandomAccessSet.insert natLess s idx).1)
        else gm.adj[v]? := by
  intro k
  induction k with
  | zero =>
    intro i gm hm hl hik
    refine ⟨gm.adj, rfl, rfl, ?_⟩
    intro v
    have : t.vars.drop i = [] := by rw [List.drop_eq_nil_iff, ← hm.visSize]; omega
    simp [this]
  | succ k ih =>
    intro i gm hm hl hik
    have hi : i < t.vars.length := by rw [← hm.visSize]; omega
    have hvi : gm.visAt f i = some (t.vars[i]) := by
      rw [hm.visAt i (by omega)]; simp [hi]
    have hvlt : t.vars[i] < gm.numLabels.length := hm.range _ (List.getElem_mem hi)
    have hcheck : (if i = 0 then some true else (gm.visAt f (i - 1)).map (fun vp => decide (vp < t.vars[i])))
        = some true := by
      split
      · rfl
      · rename_i hi0
        have h1 : i - 1 < t.vars.length := by omega
        rw [hm.visAt (i - 1) (by rw [hm.visSize]; omega)]
        have hlt := (List.pairwise_iff_getElem.mp hm.sorted) (i - 1) i h1 hi (by omega)
        simp [List.getElem?_eq_getElem h1, hlt]
    have hadj : gm.adj[t.vars[i]]? = some (gm.adj[t.vars[i]]'(by rw [hl]; exact hvlt)) :=
      List.getElem?_eq_getElem _
    set s := gm.adj[t.vars[i]]'(by rw [hl]; exact hvlt) with hsdef
    have hm' : FactorMatches { gm with adj := gm.adj.set t.vars[i] (RandomAccessSet.insert natLess s idx).1 } f t :=
      ⟨hm.bound, hm.scope, hm.sorted, hm.range, hm.fn⟩
    obtain ⟨adj', e1, e2, e3⟩ := ih (i + 1) _ hm' (by simp [hl]) (by omega)
    refine ⟨adj', ?_, ?_, ?_⟩
    · unfold GM.addFactorLoop
      simp only [hvi, hcheck, GM.numberOfVariables, hvlt, if_true, hadj]
      exact e1
    · simp [e2]
    · intro v
      rw [e3 v]
      have hdrop : t.vars.drop i = t.vars[i] :: t.vars.drop (i + 1) := List.drop_eq_getElem_cons hi
      have hnd : t.vars[i] ∉ t.vars.drop (i + 1) := by
        have hp := List.Pairwise.drop (i := i) hm.sorted
        rw [hdrop, List.pairwise_cons] at hp
        intro hmem
        exact absurd (hp.1 _ hmem) (lt_irrefl _)
      rw [hdrop]
      by_cases hv : v = t.vars[i]
      · subst hv
        simp only [hnd, if_false, List.mem_cons, true_or, if_true, hadj, Option.map_some]
        rw [List.getElem?_set_self (by rw [hl]; exact hvlt)]
      · simp only [List.mem_cons, hv, false_or]
        rw [List.getElem?_set_ne (fun e => hv e.symm)]

theorem mentions_append_lt (terms : List (Term V)) (t : Term V) (v j : Nat) (h : j < terms.length) :
    mentions (terms ++ [t]) v j = mentions terms v j := by
  simp [mentions, List.getElem?_append_left h]

theorem filter_mentions_append (terms : List (Term V)) (t : Term V) (v : Nat) :
    (List.range (terms ++ [t]).length).filter (mentions (terms ++ [t]) v) =
      (List.range terms.length).filter (mentions terms v) ++ (if v ∈ t.vars then [terms.length] else []) := by
  rw [List.length_append, List.length_singleton, List.range_succ, List.filter_append]
  congr 1
  · apply List.filter_congr
    intro j hj
    exact mentions_append_lt _ _ _ _ (List.mem_range.mp hj)
  · simp [mentions, List.filter_cons]

/-- `addFactor` with valid arguments returns the factor's index and represents the extended problem. -/
theorem represents_addFactor {gm : GM V} {p : Problem V} (h : Represents gm p) (fid : FunctionIdentifier) (t : Term V)
    (fn : Fn V) (hs : t.vars.Pairwise (· < ·)) (hr : ∀ v ∈ t.vars, v < gm.numLabels.length)
    (hf : gm.getFunction fid = some fn) (hsh : fn.shape = restrict gm.numLabels t.vars)
    (htab : ∀ c, InShape fn.shape c → fn.table c = t.table c) :
    ∃ gm', gm.addFactor fid t.vars = .ok p.terms.length gm' ∧
      Represents gm' { p with terms := p.terms ++ [t] } ∧ gm'.functions = gm.functions := by
  obtain ⟨hst, hm⟩ := stores_pushFactor h.toStores fid t fn hs hr hf hsh htab
  obtain ⟨adj', e1, e2, e3⟩ := addFactorLoop_ok t (gm.pushFactor fid t.vars).2 gm.factors.length
    (gm.pushFactor fid t.vars).2.visSize 0 _ hm hst.adjLen (by simp)
  have hlen := h.factors.length_eq
  refine ⟨{ (gm.pushFactor fid t.vars).1 with adj := adj' }, ?_, ⟨⟨hst.labels, ?_, ?_, hst.order⟩, ?_⟩, rfl⟩
  · unfold GM.addFactor
    rw [← hlen]
    exact e1
  · exact e2.trans hst.adjLen
  · refine List.Forall₂.imp ?_ hst.factors
    intro f t' hm'
    exact ⟨hm'.bound, hm'.scope, hm'.sorted, hm'.range, hm'.fn⟩
  · intro v hv
    show adj'[v]? = _
    rw [e3 v, filter_mentions_append]
    have hadj : (gm.pushFactor fid t.vars).1.adj[v]? = _ := h.adj v hv
    rw [hadj]
    simp only [List.drop_zero, Option.map_some]
    split
    · rw [hlen, insert_gt]
      intro e he
      exact List.mem_range.mp (List.mem_filter.mp he).1
    · simp

/-! ### `evaluate` -/

theorem inShape_of_InShape : ∀ (shape c rest : List Nat), InShape shape c → inShape shape (c ++ rest) = true
  | [], _, _, _ => rfl
  | n :: shape, [], _, h => by simp [InShape] at h
  | n :: shape, l :: c, rest, h => by
    simp only [InShape] at h
    simp [inShape, h.1, inShape_of_InShape shape c rest h.2]

theorem InShape_length : ∀ (shape c : List Nat), InShape shape c → c.length = shape.length
  | [], [], _ => rfl
  | [], _ :: _, h => by simp [InShape] at h
  | _ :: _, [], h => by simp [InShape] at h
  | n :: shape, l :: c, h => by simp [InShape_length shape c h.2]

theorem inShape_iff : ∀ (shape buf : List Nat), inShape shape buf = true ↔
    shape.length ≤ buf.length ∧ InShape shape (buf.take shape.length)
  | [], buf => by simp [inShape, InShape]
  | n :: shape, [] => by simp [inShape, InShape]
  | n :: shape, l :: buf => by
    simp [inShape, InShape, inShape_iff shape buf]
    tauto

/-- A labeling restricted to variables in range is in the shape of these variables. -/
theorem InShape_restrict (labels nl : List Nat) (vs : List Nat) (hl : labels.length = nl.length)
    (hb : ∀ v l n : Nat, labels[v]? = some l → nl[v]? = some n → l < n) (hr : ∀ v ∈ vs, v < nl.length) :
    InShape (restrict nl vs) (restrict labels vs) := by
  induction vs with
  | nil => simp [restrict, InShape]
  | cons v vs ih =>
    have hv := hr v (by simp)
    simp only [restrict, List.map_cons, InShape]
    refine ⟨?_, ih (fun w hw => hr w (by simp [hw]))⟩
    have h1 : v < labels.length := by omega
    rw [List.getD_eq_getElem?_getD, List.getD_eq_getElem?_getD, List.getElem?_eq_getElem h1,
      List.getElem?_eq_getElem hv]
    exact hb v _ _ (List.getElem?_eq_getElem h1) (List.getElem?_eq_getElem hv)

/-- The loop that gathers the labels of a factor's variables. -/
theorem fillState_spec {gm : GM V} {f : FactorRec} {t : Term V} (hm : FactorMatches gm f t) (labels : List Nat)
    (hl : labels.length = gm.numLabels.length) :
    ∀ (k i : Nat) (buf : List Nat), i + k = f.visSize → f.visSize ≤ buf.length →
      buf.take i = (restrict labels t.vars).take i →
      ∃ buf', GM.fillState gm labels f i k buf = some buf' ∧ buf'.length = buf.length ∧
        buf' = restrict labels t.vars ++ buf.drop f.visSize := by
  intro k
  induction k with
  | zero =>
    intro i buf hik hlen htake
    refine ⟨buf, rfl, rfl, ?_⟩
    have hi : i = f.visSize := by omega
    subst hi
    have : (restrict labels t.vars).take f.visSize = restrict labels t.vars := by
      rw [List.take_of_length_le]; simp [restrict, hm.visSize]
    rw [this] at htake
    rw [← htake, List.take_append_drop]
  | succ k ih =>
    intro i buf hik hlen htake
    have hi : i < t.vars.length := by rw [← hm.visSize]; omega
    have hvi : gm.visAt f i = some (t.vars[i]) := by
      rw [hm.visAt i (by omega)]; simp [hi]
    have hvlt : t.vars[i] < labels.length := by rw [hl]; exact hm.range _ (List.getElem_mem hi)
    have hil : i < buf.length := by omega
    obtain ⟨buf', e1, e2, e3⟩ := ih (i + 1) (buf.set i labels[t.vars[i]]) (by omega) (by simp; omega) (by
      apply List.ext_getElem?
      intro j
      by_cases hj : j < i
      · have := congrArg (fun l => l[j]?) htake
        simp only [List.getElem?_take, hj, if_true] at this
        simp only [List.getElem?_take, show j < i + 1 by omega, if_true]
        rw [List.getElem?_set_ne (by omega)]
        exact this
      · by_cases hj' : j = i
        · subst hj'
          simp [List.getElem?_take, hil, restrict, hi, hvlt]
        · simp [List.getElem?_take, show ¬ j < i + 1 by omega])
    refine ⟨buf', ?_, by simpa using e2, ?_⟩
    · unfold GM.fillState
      simp only [hvi, List.getElem?_eq_getElem hvlt, setAt, hil, if_true]
      exact e1
    · rw [e3, List.drop_set_of_lt (by omega)]

/-- One factor evaluated on a buffer that starts with the labels of its variables. -/
theorem callFactor_spec {gm : GM V} {f : FactorRec} {t : Term V} (hm : FactorMatches gm f t) (labels rest : List Nat)
    (hl : labels.length = gm.numLabels.length)
    (hb : ∀ v l n : Nat, labels[v]? = some l → gm.numLabels[v]? = some n → l < n)
    (hrest : t.vars = [] → ∃ r, rest = 0 :: r) :
    gm.callFactor f (restrict labels t.vars ++ rest) = some (t.value labels) := by
  obtain ⟨fn, h1, h2, h3⟩ := hm.fn
  have hin : InShape fn.shape (restrict labels t.vars) := by
    rw [h2]; exact InShape_restrict _ _ _ hl hb hm.range
  unfold GM.callFactor
  rw [h1]
  simp only [callFn]
  unfold Term.value
  rw [← h3 _ hin]
  cases hsh : fn.shape with
  | nil =>
    have hv : t.vars = [] := by
      rw [hsh] at h2
      cases hv : t.vars with
      | nil => rfl
      | cons a b => rw [hv] at h2; simp [restrict] at h2
    obtain ⟨r, rfl⟩ := hrest hv
    simp [hv, restrict]
  | cons n sh =>
    simp only [← hsh]
    rw [inShape_of_InShape _ _ _ hin, if_pos rfl]
    rw [← InShape_length _ _ hin, List.take_left']
    rfl

theorem le_foldl_max (l : List Nat) (a : Nat) : a ≤ l.foldl max a ∧ ∀ x ∈ l, x ≤ l.foldl max a := by
  induction l generalizing a with
  | nil => simp
  | cons b l ih =>
    have := ih (max a b)
    simp only [List.foldl_cons, List.mem_cons, forall_eq_or_imp]
    exact ⟨le_trans (le_max_left _ _) this.1, le_trans (le_max_right _ _) this.1, this.2⟩

/-- The evaluation loop. -/
theorem evaluateLoop_spec (o : Operation V) (gm : GM V) (labels : List Nat)
    (hl : labels.length = gm.numLabels.length)
    (hb : ∀ v l n : Nat, labels[v]? = some l → gm.numLabels[v]? = some n → l < n) :
    ∀ (fs : List FactorRec) (ts : List (Term V)) (buf : List Nat) (v : V),
      List.Forall₂ (FactorMatches gm) fs ts → 0 < buf.length → (∀ t ∈ ts, t.vars.length ≤ buf.length) →
      GM.evaluateLoop o gm labels fs buf v = some ((ts.map (fun t => t.value labels)).foldl o.op v) := by
  intro fs ts buf v h
  induction h generalizing buf v with
  | nil => intro _ _; simp [GM.evaluateLoop]
  | @cons f t fs ts hm h ih =>
    intro h0 hlen
    have ht := hlen t (by simp)
    obtain ⟨buf', e1, e2, e3⟩ := fillState_spec hm labels hl f.visSize 0 (buf.set 0 0) (by simp)
      (by simp [hm.visSize]; exact ht) (by simp)
    have hcall := callFactor_spec hm labels ((buf.set 0 0).drop f.visSize) hl hb (by
      intro hv
      rw [hm.visSize, hv]
      cases buf with
      | nil => simp at h0
      | cons a b => exact ⟨b, by simp⟩)
    rw [← e3] at hcall
    unfold GM.evaluateLoop
    rw [setAt_of_lt _ h0]
    simp only [e1, hcall, List.map_cons, List.foldl_cons]
    apply ih
    · rw [e2]; simpa using h0
    · intro t' ht'
      rw [e2, List.length_set]
      exact hlen t' (by simp [ht'])

theorem evaluate_spec (o : Operation V) {gm : GM V} {p : Problem V} (h : Stores gm p) (labels : List Nat)
    (hl : p.Labeling labels) : GM.evaluate o gm labels = some (p.energy o labels) := by
  unfold GM.evaluate Problem.energy
  apply evaluateLoop_spec
  · rw [h.labels]; exact hl.1
  · rw [h.labels]; exact hl.2
  · exact h.factors
  · simp
  · intro t ht
    have := (le_foldl_max (p.terms.map (fun t => t.vars.length)) 0).2 t.vars.length (List.mem_map.mpr ⟨t, ht, rfl⟩)
    rw [← h.order] at this
    simp [GM.factorOrder]; omega

/-! ### Clients -/

/-- `fn` and `g` are the same function. -/
def Agree (fn g : Table V) : Prop := fn.shape = g.shape ∧ ∀ c, InShape fn.shape c → fn.table c = g.table c

/-- The client's state represents what has been built. -/
structure ClientInv (nTypes : Nat) (c : Client V) (b : Built V) : Prop where
  rep : Represents c.gm b.problem
  types : c.gm.functions.length = nTypes
  ids : List.Forall₂ (fun id f => ∃ fn, c.gm.getFunction id = some fn ∧ Agree fn f) c.ids b.handles

/-- `operator==` of function classes: equal functions have the same shape and the same values. -/
def EqvSound (eqv : Fn V → Fn V → Bool) : Prop := ∀ f g, eqv f g = true → Agree g f

theorem client_step {eqv : Fn V → Fn V → Bool} (he : EqvSound eqv) {nTypes : Nat} {c : Client V} {b : Built V}
    (h : ClientInv nTypes c b) (op : BuildOp V) (hv : op.Valid nTypes b) :
    ∃ c', c.step eqv op = .ok () c' ∧ ClientInv nTypes c' (op.apply b) := by
  cases op with
  | addVariable n =>
    exact ⟨_, rfl, represents_addVariable h.rep n, h.types, h.ids⟩
  | addFunction ty f =>
    have hty : ty < c.gm.functions.length := by rw [h.types]; exact hv
    have ht := List.getElem?_eq_getElem hty
    refine ⟨_, by simp only [Client.step, GM.addFunction, ht]; rfl,
      represents_functions h.rep ty _ f ht, by simp [h.types], ?_⟩
    refine List.rel_append ?_ (List.Forall₂.cons ⟨f, getFunction_new _ _ _ _ ht, rfl, fun _ _ => rfl⟩ List.Forall₂.nil)
    refine List.Forall₂.imp ?_ h.ids
    rintro id g ⟨fn, h1, h2⟩
    exact ⟨fn, getFunction_set _ _ _ _ _ _ ht h1, h2⟩
  | addSharedFunction ty f =>
    have hty : ty < c.gm.functions.length := by rw [h.types]; exact hv
    have ht := List.getElem?_eq_getElem hty
    cases hfind : GM.findFunction eqv f c.gm.functions[ty] 0 with
    | none =>
      refine ⟨_, by simp only [Client.step, GM.addSharedFunction, ht, hfind]; rfl,
        represents_functions h.rep ty _ f ht, by simp [h.types], ?_⟩
      refine List.rel_append ?_ (List.Forall₂.cons ⟨f, getFunction_new _ _ _ _ ht, rfl, fun _ _ => rfl⟩
        List.Forall₂.nil)
      refine List.Forall₂.imp ?_ h.ids
      rintro id g ⟨fn, h1, h2⟩
      exact ⟨fn, getFunction_set _ _ _ _ _ _ ht h1, h2⟩
    | some i =>
      obtain ⟨_, g, h1, h2⟩ := findFunction_spec eqv f _ _ _ hfind
      refine ⟨⟨c.gm, c.ids ++ [⟨i, ty⟩]⟩, by simp only [Client.step, GM.addSharedFunction, ht, hfind], h.rep,
        h.types, ?_⟩
      refine List.rel_append h.ids (List.Forall₂.cons ⟨g, ?_, he f g h2⟩ List.Forall₂.nil)
      simp only [GM.getFunction, ht, Option.bind_some]
      simpa using h1
  | addFactor hd vars =>
    obtain ⟨hs, hr, f, hf, hsh⟩ := hv
    have hlen := h.ids.length_eq
    have hlt := (List.getElem?_eq_some_iff.mp hf).1
    have hid : c.ids[hd]? = some (c.ids[hd]'(by omega)) := List.getElem?_eq_getElem _
    have hfn := h.ids.get (i := hd) (by omega) hlt
    have hfeq := (List.getElem?_eq_some_iff.mp hf).2
    simp only [List.get_eq_getElem, hfeq] at hfn
    obtain ⟨fn, h1, h2, h3⟩ := hfn
    have hlab : c.gm.numLabels = b.numLabels := h.rep.labels
    obtain ⟨gm', e1, e2, e3⟩ := represents_addFactor h.rep _ ⟨vars, f.table⟩ fn hs (by rw [hlab]; exact hr) h1
      (by rw [h2, hsh, hlab]) h3
    refine ⟨⟨gm', c.ids⟩, ?_, ?_, by simp [e3, h.types], ?_⟩
    · simp only [Client.step, hid]
      simp only at e1
      rw [e1]
    · simp only [BuildOp.apply, hf]; exact e2
    · have hg : ∀ id, gm'.getFunction id = c.gm.getFunction id := by intro id; simp [GM.getFunction, e3]
      simp only [BuildOp.apply, hf, hg]; exact h.ids

theorem client_init (nTypes : Nat) : ClientInv (V := V) nTypes (Client.init nTypes) Built.empty where
  rep := by
    refine ⟨⟨rfl, rfl, List.Forall₂.nil, rfl⟩, ?_⟩
    intro v hv
    simp [Client.init, GM.empty] at hv
  types := by simp [Client.init, GM.empty]
  ids := List.Forall₂.nil

theorem client_run {eqv : Fn V → Fn V → Bool} (he : EqvSound eqv) {nTypes : Nat} (ops : List (BuildOp V))
    {c : Client V} {b : Built V} (h : ClientInv nTypes c b) (hv : ValidHistory nTypes b ops) :
    ∃ c', c.run eqv ops = .ok () c' ∧ ClientInv nTypes c' (ops.foldl BuildOp.apply b) := by
  induction ops generalizing c b with
  | nil => exact ⟨c, rfl, h⟩
  | cons op ops ih =>
    obtain ⟨c', e1, e2⟩ := client_step he h op hv.1
    obtain ⟨c'', e3, e4⟩ := ih e2 hv.2
    exact ⟨c'', by simp only [Client.run, e1, e3], e4⟩

end OpenGM
