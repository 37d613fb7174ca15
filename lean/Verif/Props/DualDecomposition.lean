import Verif.Lemmas.DualDecompositionBounds
import Verif.Lemmas.Built
import Verif.Lemmas.ICM
import Verif.Props.Decomposer
import Verif.Props.Acyclic
import Mathlib.Tactic.Linarith
/-
C63. Dual decomposition (class DualDecompositionSubGradient).

The constructor decomposes the model and builds submodels. However often `infer` has been called, with whatever step sizes and visitors: the values of the
submodels at labelings that agree on the copies sum to the value of the model; `value()` is the value of the labeling `arg` returns; with exact solvers for
the submodels `bound()` is a bound on the values of all labelings; and if the loop ends by its test for convergence the result is as close to the optimum as
the test says.
-/
namespace OpenGM
namespace DualDecomposition
open Spec Decomposition
variable {V : Type} [Field V] [LinearOrder V]

/-- The calls of the constructor that are considered. -/
def KindOk (p : Problem V) : Kind → Prop
  | .tree => True
  | .spanningTrees => True
  | .kFans k => 0 < k ∧ p.numLabels ≠ [] ∧ ∀ t ∈ p.terms, t.vars.length ≤ 2
  | .manual subs => ∀ fs ∈ subs, ∀ f ∈ fs, f < p.terms.length
  | .closedBlocks bs => p.numLabels.length ≤ Decomposer.maxSize ∧ ∀ inner ∈ bs, inner.Nodup ∧ ∀ v ∈ inner, v < p.numLabels.length
  | .openBlocks bs => p.numLabels.length ≤ Decomposer.maxSize ∧ ∀ inner ∈ bs, inner.Nodup ∧ ∀ v ∈ inner, v < p.numLabels.length

/-- The submodels contain all factors. -/
def KindCovers (p : Problem V) : Kind → Prop
  | .tree => True
  | .spanningTrees => True
  | .kFans _ => True
  | .manual subs => ∀ f, f < p.terms.length → ∃ fs ∈ subs, f ∈ fs
  | .closedBlocks bs => ∀ t ∈ p.terms, ∃ inner ∈ bs, t.vars = [] ∨ ∃ w ∈ t.vars, w ∈ inner
  | .openBlocks bs => ∀ t ∈ p.terms, ∃ inner ∈ bs, ∀ w ∈ t.vars, w ∈ inner

/-- The value of a submodel at a labeling. -/
def subValue (mem : Mem V) (g : Sub V) (y : List Nat) : Option V := (GM.evaluate adder g y).bind (fun v => v mem)

/-- The solver returns labelings of the submodels. -/
def ReturnsLabelings (solver : Solver V) : Prop :=
  ∀ (it : Nat) (g : Sub V) (mem : Mem V), (∀ n ∈ g.numLabels, 0 < n) → RowLabeling g.numLabels (solver it g mem)

/-- The solver returns labelings of the submodels with the best value. -/
def Exact (acc : Acc) (solver : Solver V) : Prop :=
  ReturnsLabelings solver ∧
  ∀ (it : Nat) (g : Sub V) (mem : Mem V) (y : List Nat) (b : V), (∀ n ∈ g.numLabels, 0 < n) → RowLabeling g.numLabels y → subValue mem g y = some b →
    ∃ a, subValue mem g (solver it g mem) = some a ∧ acc.le a b

/-- The states of the solver object: after the constructor, and after any calls of `infer` with solvers for the submodels that meet `ok`, arbitrary step
sizes, visitors, accuracies and numbers of iterations. -/
inductive Reach (gm : GM V) (acc : Acc) (k : Kind) (ok : Solver V → Prop) : DD V → Prop
  | make {fill : Bool} {dd : DD V} : construct gm acc fill k = .ok dd () → Reach gm acc k ok dd
  | infer {dd dd' : DD V} {solver : Solver V} {step : Nat → DD V → V} {visit : Nat → DD V → Bool} {absAcc relAcc : V} {maxIter : Nat} {b : Bool} :
      Reach gm acc k ok dd → ok solver → infer dd solver step visit absAcc relAcc maxIter = some (b, dd') → Reach gm acc k ok dd'

/-! ### The constructor -/

omit [LinearOrder V] in
theorem decompose_spec {gm : GM V} {p : Problem V} (h : Represents gm p) {k : Kind} (hk : KindOk p k) :
    ∃ d, decompose gm k = .ok d () ∧ Reachable p.numLabels.length (p.terms.map Term.vars) d ∧
      (KindCovers p k → ∀ f, f < p.terms.length → ∃ m, m < d.numModels ∧ 0 < facCopies d.facLists m f) ∧
      (k = .tree → d.numModels = 1 ∧ (∀ v, v < p.numLabels.length → 1 ≤ varCopies d.varLists 0 v) ∧
        ((bipartite (p.terms.map Term.vars)).IsAcyclic → ∀ v, varCopies d.varLists 0 v = if v < p.numLabels.length then 1 else 0)) := by
  obtain ⟨hx, h1, h2⟩ := factorGraph_exact h
  have hsc := scopesOf_eq h
  have hn : gm.numberOfVariables = p.numLabels.length := by rw [← h.labels]; rfl
  have hr : ∀ vars ∈ p.terms.map Term.vars, ∀ v ∈ vars, v < p.numLabels.length := by
    rw [← h1, ← h2]
    exact hx.range
  have hnd : ∀ vars ∈ p.terms.map Term.vars, vars.Nodup := by
    rw [← h1]
    intro vars hv
    exact (hx.sorted vars hv).imp (fun h => Nat.ne_of_lt h)
  have hlen : (p.terms.map Term.vars).length = p.terms.length := by simp
  cases k with
  | tree =>
    obtain ⟨d, e, r, n1, _, hv, hf, _⟩ := Decomposer.C62_tree hr
    refine ⟨d, ?_, r, ?_, ?_⟩
    · simp only [decompose, hn, hsc, e, decompose.ofOption]
    · intro _ f hf'
      exact ⟨0, by omega, by rw [hf f (by rw [hlen]; exact hf')]; omega⟩
    · intro _
      refine ⟨n1, hv, ?_⟩
      intro hac
      obtain ⟨d', e', hv'⟩ := Decomposer.C62_tree_acyclic hr hnd hac
      rw [e] at e'
      injection e' with e'
      subst e'
      exact hv'
  | spanningTrees =>
    obtain ⟨d, e, r, _, _, hf, _⟩ := Decomposer.C62_spanningTrees hr hnd
    refine ⟨d, ?_, r, ?_, by simp⟩
    · simp only [decompose, hn, hsc, e, decompose.ofOption]
    · intro _ f hf'
      obtain ⟨m, h3, h4⟩ := hf f (by rw [hlen]; exact hf')
      exact ⟨m, h3, by omega⟩
  | kFans k =>
    obtain ⟨hk1, hk2, hk3⟩ := hk
    have hg : (⟨gm.numberOfVariables, scopesOf gm, gm.adj⟩ : FG).Exact := hx
    obtain ⟨d, e, r, _, _, hvd⟩ := Decomposer.C62_kFansOfSize hg (by
      intro vars hv
      simp only [hsc] at hv
      obtain ⟨t, ht, rfl⟩ := List.mem_map.mp hv
      exact hk3 t ht) hk1 (by
      simp only [hn]
      exact List.length_pos_iff.mpr hk2)
    simp only [hn, hsc] at r hvd e
    refine ⟨d, ?_, r, ?_, by simp⟩
    · simp only [decompose, hn, hsc, e]
    · intro _ f hf'
      obtain ⟨b, eb, hb⟩ := Decomposer.valid_iff hr r
      rw [hvd] at eb
      injection eb with eb
      exact (hb.mp eb.symm).2 f (by rw [hlen]; exact hf')
  | manual subs =>
    obtain ⟨d, e, r, hm, hc, _⟩ := Decomposer.C62_manual (subs := subs) hr (by rw [hlen]; exact hk)
    refine ⟨d, ?_, r, ?_, by simp⟩
    · simp only [decompose, hn, hsc, e, decompose.ofOption]
    · intro hcov f hf
      obtain ⟨fs, hfs, hin⟩ := hcov f hf
      obtain ⟨m, hm'⟩ := List.getElem?_of_mem hfs
      refine ⟨m, by rw [hm]; exact (List.getElem?_eq_some_iff.mp hm').1, ?_⟩
      rw [(hc m fs hm').2 f]
      exact List.count_pos_iff.mpr hin
  | closedBlocks bs =>
    obtain ⟨d, e, r, hm, hc, _⟩ := Decomposer.C62_closedBlocks hk.1 hr hk.2
    refine ⟨d, ?_, r, ?_, by simp⟩
    · simp only [decompose, hn, hsc, e, decompose.ofOption]
    · intro hcov f hf
      obtain ⟨inner, hi, hin⟩ := hcov _ (List.getElem_mem hf)
      obtain ⟨m, hm'⟩ := List.getElem?_of_mem hi
      refine ⟨m, by rw [hm]; exact (List.getElem?_eq_some_iff.mp hm').1, ?_⟩
      rw [(hc m inner hm').2 f, if_pos ⟨p.terms[f].vars, by simp [hf], hin⟩]
      omega
  | openBlocks bs =>
    obtain ⟨d, e, r, hm, hc⟩ := Decomposer.C62_openBlocks hk.1 hr hk.2
    refine ⟨d, ?_, r, ?_, by simp⟩
    · simp only [decompose, hn, hsc, e, decompose.ofOption]
    · intro hcov f hf
      obtain ⟨inner, hi, hin⟩ := hcov _ (List.getElem_mem hf)
      obtain ⟨m, hm'⟩ := List.getElem?_of_mem hi
      refine ⟨m, by rw [hm]; exact (List.getElem?_eq_some_iff.mp hm').1, ?_⟩
      rw [(hc m inner hm').2 f, if_pos ⟨p.terms[f].vars, by simp [hf], hin⟩]
      omega

/-- `reorder` and `complete` keep the copies of variables and do not remove copies of factors. -/
theorem reorder_complete {n : Nat} {scopes : List (List Nat)} {d : Decomposition} (r : Reachable n scopes d) (hs : ∀ vars ∈ scopes, vars.Pairwise (· < ·)) :
    ∃ d1 d2, d.reorder = some d1 ∧ d1.complete = some d2 ∧ Reachable n scopes d2 ∧ d2.numModels = d.numModels ∧
      (∀ s ∈ d2.facLists.flatten, s.indices.Pairwise (· < ·)) ∧ (∀ m v, varCopies d2.varLists m v = varCopies d.varLists m v) ∧
      ∀ (f : Nat), d2.facLists[f]? = some [] → d.facLists[f]? = some [] := by
  obtain ⟨_, _, _, _, _, d1, e1⟩ := C50_operations r
  have r1 := r.reorder e1
  obtain ⟨_, _, _, _, ⟨d2, e2⟩, _⟩ := C50_operations r1
  have r2 := r1.complete e2
  have c1 := C50_reorder r e1
  obtain ⟨_, _, cm, _, cv, cu, cf, _⟩ := C50_complete r1 e2
  refine ⟨d1, d2, e1, e2, r2, by rw [cm, c1.2.2.2.2.2.1], ?_, ?_, ?_⟩
  · intro s hsm
    obtain ⟨l, hl, hsl⟩ := List.mem_flatten.mp hsm
    obtain ⟨f, hf⟩ := List.getElem?_of_mem hl
    obtain ⟨_, vars, hv, hc⟩ := r2.inv.2.copies f l s hf hsl
    by_cases h1 : vars.length = 1
    · have := hc.length_eq
      match hi : s.indices, this with
      | [], _ => exact .nil
      | [a], _ => exact List.pairwise_singleton _ _
      | a :: b :: t, ht => simp [h1] at ht
    · have : d2.facLists[f]? = d1.facLists[f]? := cf f (by
        rintro v copies _ _ hsc
        rw [hv] at hsc
        injection hsc with hsc
        rw [hsc] at h1
        simp at h1)
      rw [this] at hf
      exact Decomposer.sorted_of_reorder r e1 hs s (List.mem_flatten.mpr ⟨l, List.mem_of_getElem? hf, hsl⟩)
  · intro m v
    obtain ⟨⟨π, _, hvl, _⟩, _⟩ := c1
    rw [cv, hvl]
    unfold varCopies
    rw [List.getElem?_map]
    cases d.varLists[v]? with
    | none => rfl
    | some l =>
      simp only [Option.map_some, Option.getD_some, List.countP_map]
      rfl
  · intro f hf
    have h1 : d1.facLists[f]? = some [] := by
      by_cases hu : ∀ (v : Nat) (copies : List SubVariable), d1.varLists[v]? = some copies → 1 < copies.length → scopes[f]? ≠ some [v]
      · rw [← cf f hu]
        exact hf
      · push Not at hu
        obtain ⟨v, copies, h1, h2, h3⟩ := hu
        rcases cu v copies h1 h2 with ⟨f', fl, fl', g1, g2, g3, g4, ⟨ext, g5, _⟩, _, _, g6⟩ | ⟨g1, _⟩
        · by_cases hff : f = f'
          · subst hff
            rw [hf] at g4
            injection g4 with g4
            rw [g5] at g4
            have := (List.append_eq_nil_iff.mp g4.symm).1
            exact absurd this g2
          · rw [← g6 f hff h3]
            exact hf
        · have hlen : f < d1.facLists.length := by
            have w := r1.inv.2
            rw [w.facsLen, ← w.scopesLen]
            exact (List.getElem?_eq_some_iff.mp h3).1
          have := (g1 f _ h3 (List.getElem?_eq_getElem hlen)).1
          rw [List.getElem?_eq_getElem hlen, this]
    obtain ⟨⟨π, _, _, hfl, _⟩, _⟩ := c1
    rw [hfl, List.getElem?_map] at h1
    cases hd : d.facLists[f]? with
    | none => rw [hd] at h1; simp at h1
    | some l =>
      rw [hd] at h1
      simpa using h1

theorem construct_spec [CharZero V] {gm : GM V} {p : Problem V} (h : Represents gm p) {k : Kind} (hk : KindOk p k) (acc : Acc) (fill : Bool) :
    ∃ dd ns calls, construct gm acc fill k = .ok dd () ∧ Inv p ns calls dd ∧ dd.gm = gm ∧ dd.acc = acc ∧ dd.upper = none ∧ dd.negLower = none ∧
      (KindCovers p k → ∀ f, f < p.terms.length → dd.decomposition.facLists[f]? ≠ some []) ∧
      (k = .tree → dd.decomposition.numModels = 1 ∧ (∀ v, v < p.numLabels.length → 1 ≤ varCopies dd.decomposition.varLists 0 v) ∧
        ((bipartite (p.terms.map Term.vars)).IsAcyclic → ∀ v, varCopies dd.decomposition.varLists 0 v = if v < p.numLabels.length then 1 else 0)) := by
  obtain ⟨d, e, r, hcov, htree⟩ := decompose_spec h hk
  obtain ⟨hx, h1, h2⟩ := factorGraph_exact h
  obtain ⟨d1, d2, e1, e2, r2, hm, hsort, hvc, hfc⟩ := reorder_complete r (by rw [← h1]; exact hx.sorted)
  obtain ⟨hnv, w⟩ := r2.inv
  obtain ⟨ns, ens, hns, hst⟩ := numStates_spec w gm (by rw [hnv, h.labels])
  have hctx : Ctx gm p d2 1 ns := ⟨h, w, hnv, hsort, by
    intro q hq hlen s hs
    have := (w.emptyCopies q.1 q.2 s hq hs).2.length_eq
    match hi : s.indices, this with
    | [], _ => exact .nil
    | [a], _ => exact List.pairwise_singleton _ _
    | a :: b :: t, ht => simp at ht; omega, hns, by rw [← h.labels]; exact hst⟩
  obtain ⟨dd, calls, e3, hI, g1, g2, _, g3, g4, g5, _⟩ := setup_spec acc fill ens hctx
  refine ⟨dd, ns, calls, ?_, hI, g1, g2, g4, g5, ?_, ?_⟩
  · simp only [construct, e, prepare, e1, e2, e3]
  · intro hc f hf hnil
    rw [g3] at hnil
    obtain ⟨m, _, hm'⟩ := hcov hc f hf
    unfold facCopies at hm'
    rw [hfc f hnil] at hm'
    simp at hm'
  · intro ht
    rw [g3, hm]
    obtain ⟨t1, t2, t3⟩ := htree ht
    refine ⟨t1, ?_, ?_⟩
    · intro v hv
      rw [hvc]
      exact t2 v hv
    · intro hac v
      rw [hvc]
      exact t3 hac v

/-! ### Iterations -/

theorem lowerBound_iff (mem : Mem V) : ∀ (subs : List (Sub V)) (Y : List (List Nat)) (L : V), subs.length = Y.length →
    (lowerBound mem subs Y = some L ↔ ∃ w : List V, List.Forall₂ (fun (q : Sub V × List Nat) v => subValue mem q.1 q.2 = some v) (subs.zip Y) w ∧ w.sum = L)
  | [], [], L, _ => by
    simp only [lowerBound, Option.some.injEq, List.zip_nil_left, List.forall₂_nil_left_iff, exists_eq_left, List.sum_nil]
  | [], _ :: _, _, h => by simp at h
  | _ :: _, [], _, h => by simp at h
  | g :: gs, y :: ys, L, h => by
    have ih := lowerBound_iff mem gs ys
    rw [List.zip_cons_cons]
    simp only [lowerBound]
    constructor
    · intro h1
      split at h1
      · simp at h1
      · rename_i v hv
        split at h1
        · rename_i a b ha hb
          injection h1 with h1
          obtain ⟨w, hw, hs⟩ := (ih b (by simpa using h)).mp hb
          exact ⟨a :: w, .cons (by simp [subValue, hv, ha]) hw, by rw [List.sum_cons, hs, h1]⟩
        · simp at h1
    · rintro ⟨w, hw, hs⟩
      cases hw with
      | @cons _ a _ w h1 h2 =>
        have hb := (ih w.sum (by simpa using h)).mpr ⟨w, h2, rfl⟩
        simp only [subValue, Option.bind_eq_some_iff] at h1
        obtain ⟨v, hv, ha⟩ := h1
        rw [hv]
        simp only [ha, hb]
        rw [List.sum_cons] at hs
        rw [hs]

theorem lowerBound_le [IsStrictOrderedRing V] (acc : Acc) (mem : Mem V) : ∀ (subs : List (Sub V)) (X Y : List (List Nat)) (B : V), subs.length = X.length →
    (∀ (m : Nat) (g : Sub V) (x y : List Nat) (b : V), subs[m]? = some g → X[m]? = some x → Y[m]? = some y → subValue mem g y = some b →
      ∃ a, subValue mem g x = some a ∧ acc.le a b) →
    lowerBound mem subs Y = some B → ∃ A, lowerBound mem subs X = some A ∧ acc.le A B
  | [], X, Y, B, _, _, h => by
    simp only [lowerBound, Option.some.injEq] at h ⊢
    exact ⟨0, rfl, by rw [h]; exact acc.le_refl B⟩
  | _ :: _, [], _, _, h, _, _ => by simp at h
  | _ :: _, _ :: _, [], _, _, _, h => by simp [lowerBound] at h
  | g :: gs, x :: xs, y :: ys, B, hl, hle, h => by
    simp only [lowerBound] at h
    split at h
    · simp at h
    · rename_i v hv
      split at h
      · rename_i a b ha hb
        injection h with h
        obtain ⟨A, hA, hAle⟩ := lowerBound_le acc mem gs xs ys b (by simpa using hl) (fun m g' x' y' b' h1 h2 h3 =>
          hle (m + 1) g' x' y' b' (by simpa using h1) (by simpa using h2) (by simpa using h3)) hb
        obtain ⟨a', ha', hale⟩ := hle 0 g x y a rfl rfl rfl (by simp [subValue, hv, ha])
        simp only [subValue, Option.bind_eq_some_iff] at ha'
        obtain ⟨v', hv', ha'⟩ := ha'
        refine ⟨a' + A, by simp only [lowerBound, hv', ha', hA], ?_⟩
        rw [← h]
        exact Acc.le_add hale hAle
      · simp at h

section
variable {p : Problem V} {ns : List (List Nat)} {calls : List (Call V)} {dd : DD V}

/-- Labelings of the submodels that agree with a labeling of the model. -/
theorem Inv.copyLabels (h : Inv p ns calls dd) {x : List Nat} (hx : p.Labeling x) :
    ∃ Y, List.Forall₂ RowLabeling ns Y ∧ Agrees dd.decomposition.varLists x Y := by
  obtain ⟨T, _, hT, hTe⟩ := table_spec h.ctx.wf (fun v => x[v]?) (fun v hv => ⟨_, List.getElem?_eq_getElem (by rw [hx.1, ← h.ctx.vars]; exact hv)⟩)
  have hlenT : T.map List.length = ns.map List.length := by rw [hT, h.ctx.shape]
  have hl : ns.length = T.length := by
    have := congrArg List.length hlenT
    simpa using this.symm
  refine ⟨T, ?_, ?_⟩
  · rw [List.forall₂_iff_get]
    refine ⟨hl, ?_⟩
    intro m hm hmT
    simp only [List.get_eq_getElem]
    have hml : T[m].length = ns[m].length := by
      have := congrArg (fun l => l[m]?) hlenT
      simpa [List.getElem?_map, List.getElem?_eq_getElem hm, List.getElem?_eq_getElem hmT] using this
    refine ⟨hml, ?_⟩
    intro k l n hk hn
    have hkn : k < ns[m].length := (List.getElem?_eq_some_iff.mp hn).1
    have hcount : dd.decomposition.numSubVars[m]? = some ns[m].length := by
      rw [← h.ctx.shape, List.getElem?_map, List.getElem?_eq_getElem hm]
      rfl
    obtain ⟨v, hv⟩ := (h.ctx.wf.numbered.range m k).mpr ⟨_, hcount, hkn⟩
    have e1 := hTe m k v hv
    have e2 := h.ctx.states m k v hv
    simp only [entry, List.getElem?_eq_getElem hmT, List.getElem?_eq_getElem hm, hk, hn] at e1 e2
    exact hx.2 v l n e1.symm e2.symm
  · intro m k v hc
    have hv := copyOf_lt hc
    rw [h.ctx.wf.varsLen, h.ctx.vars, ← hx.1] at hv
    have e1 := hTe m k v hc
    rw [List.getElem?_eq_getElem hv, entry_eq] at e1
    obtain ⟨row, e1, e2⟩ := e1
    exact ⟨row, x[v], e1, e2, List.getElem?_eq_getElem hv⟩

/-- The values of the submodels at agreeing labelings. -/
theorem Inv.agreeValue (h : Inv p ns calls dd) (hcov : ∀ f, f < p.terms.length → dd.decomposition.facLists[f]? ≠ some []) {x : List Nat} (hx : p.Labeling x)
    {Y : List (List Nat)} (hY : List.Forall₂ RowLabeling ns Y) (hA : Agrees dd.decomposition.varLists x Y) :
    lowerBound dd.mem dd.subs Y = some (p.energy (sumOp V) x) := by
  rw [h.lowerValue h.mem hY, h.sum dd.mem x Y h.mem h.zero hx hA, coveredSum_eq hcov]

theorem Inv.rows (h : Inv p ns calls dd) : dd.subs.map (fun g => g.numLabels) = ns := by
  apply List.ext_getElem
  · simp [h.subs.len]
  · intro m h1 h2
    have hm : m < dd.subs.length := by simpa using h1
    have := (h.subs.rep m _ _ (List.getElem?_eq_getElem hm) (List.getElem?_eq_getElem h2)).1.labels
    simpa using this

theorem Inv.rowsPos (h : Inv p ns calls dd) (hp : ∀ n ∈ p.numLabels, 0 < n) : ∀ row ∈ ns, ∀ n ∈ row, 0 < n := by
  intro row hrow n hn
  obtain ⟨m, hm⟩ := List.getElem?_of_mem hrow
  obtain ⟨k, hk⟩ := List.getElem?_of_mem hn
  have hcount : dd.decomposition.numSubVars[m]? = some row.length := by
    rw [← h.ctx.shape, List.getElem?_map, hm]
    rfl
  obtain ⟨v, hv⟩ := (h.ctx.wf.numbered.range m k).mpr ⟨_, hcount, (List.getElem?_eq_some_iff.mp hk).1⟩
  have e := h.ctx.states m k v hv
  simp only [entry, hm, hk] at e
  exact hp n (List.mem_of_getElem? e.symm)

theorem Inv.solved (h : Inv p ns calls dd) (hp : ∀ n ∈ p.numLabels, 0 < n) {solver : Solver V} (hs : ReturnsLabelings solver) (it : Nat) (mem : Mem V) :
    List.Forall₂ RowLabeling ns (dd.subs.map (fun g => solver it g mem)) := by
  rw [← h.rows, List.forall₂_map_left_iff, List.forall₂_map_right_iff, List.forall₂_same]
  intro g hg
  apply hs
  apply h.rowsPos hp
  rw [← h.rows]
  exact List.mem_map.mpr ⟨g, hg, rfl⟩

/-- One iteration. -/
theorem iterate_spec [CharZero V] (h : Inv p ns calls dd) (hpos : 0 < dd.decomposition.numModels) (hp : ∀ n ∈ p.numLabels, 0 < n) {Y : List (List Nat)}
    (hY : List.Forall₂ RowLabeling ns Y) (step : DD V → V) :
    ∃ (dd' : DD V) (L : V) (q : V × List Nat) (dflt : List Nat), iterate dd Y step = some dd' ∧ Inv p ns calls dd' ∧ dd'.acc = dd.acc ∧ dd'.gm = dd.gm ∧
      dd'.decomposition = dd.decomposition ∧
      dd'.subs = dd.subs ∧ lowerBound dd.mem dd.subs Y = some L ∧ dd'.negLower = some (accumulateValue dd.acc dd.negLower (-L)) ∧ dd'.upper = some q ∧
      (∀ q0, dd.upper = some q0 → dd.acc.le q.1 q0.1) ∧ p.Labeling dflt ∧ dd.acc.le q.1 (p.energy (sumOp V) dflt) ∧
      (∀ (v : Nat) (copies : List SubVariable), dd.decomposition.varLists[v]? = some copies → copies ≠ [] → ∃ s ∈ copies, entry Y s.model s.id = dflt[v]?) := by
  obtain ⟨L, best, same, dflt, e1, e2, hc, hl, hs, _, hd, hle, hcop, _⟩ := getBounds_spec h hpos hp hY
  obtain ⟨q, eq, h1, h2, h3⟩ := accumulate_spec dd.acc dd.upper best.1 best.2
  have hI : ∀ mem, MemOk dd.blocks mem → ZeroSum mem → Inv p ns calls
      { dd with same := same, negLower := some (accumulateValue dd.acc dd.negLower (-L)), upper := accumulate dd.acc dd.upper best.1 best.2, mem := mem } := by
    intro mem hM hZ
    refine ⟨h.ctx, h.subs, h.good, h.sum, h.blocks, hM, hZ, hl, .inr hs, ?_⟩
    intro v x hvx
    simp only [eq, Option.some.injEq] at hvx
    rcases h1 with h1 | h1
    · rw [hvx] at h1
      obtain ⟨rfl, rfl⟩ := Prod.mk.inj h1
      exact hc
    · exact h.upper v x (by rw [h1, hvx])
  obtain ⟨mem', e3, hM, hZ⟩ := dualStep_spec h.ctx hY
    (step { dd with same := same, negLower := some (accumulateValue dd.acc dd.negLower (-L)), upper := accumulate dd.acc dd.upper best.1 best.2 })
    dd.blocks dd.mem h.blocks h.mem h.zero
  refine ⟨_, L, q, dflt, ?_, hI mem' hM hZ, rfl, rfl, rfl, rfl, e2, rfl, eq, h3, hd, Acc.le_trans h2 hle, hcop⟩
  obtain ⟨bv, bx⟩ := best
  simp only [iterate, e1, e3]

/-- `bound()` is a bound. -/
def BoundOk (p : Problem V) (dd : DD V) : Prop := ∀ l, dd.negLower = some l → ∀ x, p.Labeling x → dd.acc.le (-l) (p.energy (sumOp V) x)

/-- The best value is at least as good as before, and so is the bound. -/
structure Improves (dd dd' : DD V) : Prop where
  upper : ∀ q, dd.upper = some q → ∃ q', dd'.upper = some q' ∧ dd.acc.le q'.1 q.1
  lower : ∀ l, dd.negLower = some l → ∃ l', dd'.negLower = some l' ∧ dd.acc.le l' l

theorem Inv.boundOk [IsStrictOrderedRing V] (h : Inv p ns calls dd) (hcov : ∀ f, f < p.terms.length → dd.decomposition.facLists[f]? ≠ some [])
    (hp : ∀ n ∈ p.numLabels, 0 < n) {solver : Solver V} (hs : Exact dd.acc solver) (it : Nat) {L : V}
    (hL : lowerBound dd.mem dd.subs (dd.subs.map (fun g => solver it g dd.mem)) = some L) {x : List Nat} (hx : p.Labeling x) :
    dd.acc.le L (p.energy (sumOp V) x) := by
  obtain ⟨Y, hY, hA⟩ := h.copyLabels hx
  obtain ⟨A, e, hle⟩ := lowerBound_le dd.acc dd.mem dd.subs (dd.subs.map (fun g => solver it g dd.mem)) Y _ (by simp) (by
    intro m g x' y b h1 h2 h3 h4
    rw [List.getElem?_map, h1] at h2
    simp only [Option.map_some, Option.some.injEq] at h2
    subst h2
    obtain ⟨row, hrow, hR⟩ := row_of_forall₂ hY h3
    have hlab := (h.subs.rep m g row h1 hrow).1.labels
    simp only at hlab
    refine hs.2 it g dd.mem y b ?_ (by rw [hlab]; exact hR) h4
    rw [hlab]
    exact h.rowsPos hp row (List.mem_of_getElem? hrow)) (h.agreeValue hcov hx hY hA)
  rw [hL] at e
  injection e with e
  subst e
  exact hle

theorem inferLoop_spec [IsStrictOrderedRing V] (hp : ∀ n ∈ p.numLabels, 0 < n) {solver : Solver V} (hs : ReturnsLabelings solver) (step : Nat → DD V → V)
    (visit : Nat → DD V → Bool) (absAcc relAcc : V) : ∀ (left it : Nat) (dd : DD V), Inv p ns calls dd → 0 < dd.decomposition.numModels →
    ∃ b dd', inferLoop solver step visit absAcc relAcc left it dd = some (b, dd') ∧ Inv p ns calls dd' ∧ dd'.acc = dd.acc ∧ dd'.gm = dd.gm ∧
      dd'.decomposition = dd.decomposition ∧
      dd'.subs = dd.subs ∧ Improves dd dd' ∧ (0 < left → dd'.upper ≠ none ∧ dd'.negLower ≠ none) ∧ (b = true → converged dd' absAcc relAcc = some true) ∧
      (Exact dd.acc solver → (∀ f, f < p.terms.length → dd.decomposition.facLists[f]? ≠ some []) → BoundOk p dd → BoundOk p dd')
  | 0, it, dd, h, _ => ⟨false, dd, rfl, h, rfl, rfl, rfl, rfl, ⟨fun q hq => ⟨q, hq, dd.acc.le_refl _⟩, fun l hl => ⟨l, hl, dd.acc.le_refl _⟩⟩, by simp, by simp, fun _ _ hb => hb⟩
  | left + 1, it, dd, h, hpos => by
    obtain ⟨dd1, L, q, dflt, e, h1, ha, hg, hd, hsub, hL, hlow, hup, hle, _⟩ := iterate_spec h hpos hp (h.solved hp hs it dd.mem) (step it)
    have himp : Improves dd dd1 := by
      refine ⟨fun q0 hq => ⟨q, hup, hle q0 hq⟩, fun l hl => ⟨_, hlow, ?_⟩⟩
      exact (accumulateValue_spec dd.acc dd.negLower (-L)).2.2 l hl
    have hb1 : Exact dd.acc solver → (∀ f, f < p.terms.length → dd.decomposition.facLists[f]? ≠ some []) → BoundOk p dd → BoundOk p dd1 := by
      intro hex hcov hb l hl x hx
      rw [hlow] at hl
      injection hl with hl
      rw [ha]
      rcases (accumulateValue_spec dd.acc dd.negLower (-L)).1 with h2 | h2
      · rw [← hl, h2, neg_neg]
        exact h.boundOk hcov hp hex it hL hx
      · rw [hl] at h2
        exact hb l h2 x hx
    have hconv : ∃ c, converged dd1 absAcc relAcc = some c := by
      obtain ⟨v, x⟩ := q
      exact ⟨_, by simp only [converged, hup, hlow]; rfl⟩
    simp only [inferLoop, e]
    by_cases hv : visit it dd1 = true
    · rw [if_pos hv]
      exact ⟨false, dd1, rfl, h1, ha, hg, hd, hsub, himp, fun _ => ⟨by simp [hup], by simp [hlow]⟩, by simp, hb1⟩
    · rw [if_neg hv]
      obtain ⟨c, hc⟩ := hconv
      rw [hc]
      cases c with
      | true => exact ⟨true, dd1, rfl, h1, ha, hg, hd, hsub, himp, fun _ => ⟨by simp [hup], by simp [hlow]⟩, fun _ => hc, hb1⟩
      | false =>
        obtain ⟨b, dd2, e2, h2, ha2, hg2, hd2, hsub2, himp2, _, hcv, hb2⟩ := inferLoop_spec hp hs step visit absAcc relAcc left (it + 1) dd1 h1 (by rw [hd]; exact hpos)
        obtain ⟨q2, hq2, hle2⟩ := himp2.upper q hup
        obtain ⟨l2, hl2, hle3⟩ := himp2.lower _ hlow
        refine ⟨b, dd2, e2, h2, by rw [ha2, ha], by rw [hg2, hg], by rw [hd2, hd], by rw [hsub2, hsub], ?_, fun _ => ⟨by simp [hq2], by simp [hl2]⟩, hcv, ?_⟩
        · refine ⟨?_, ?_⟩
          · intro q0 hq0
            refine ⟨q2, hq2, ?_⟩
            rw [ha] at hle2
            exact Acc.le_trans hle2 (hle q0 hq0)
          · intro l hl
            refine ⟨l2, hl2, ?_⟩
            rw [ha] at hle3
            obtain ⟨l', hl', hle'⟩ := himp.lower l hl
            rw [hlow] at hl'
            injection hl' with hl'
            rw [← hl'] at hle'
            exact Acc.le_trans hle3 hle'
        · intro hex hcov hb
          exact hb2 (by rw [ha]; exact hex) (by rw [hd]; exact hcov) (hb1 hex hcov hb)

theorem no_models (h : Inv p ns calls dd) (h0 : dd.decomposition.numModels = 0) (Y : List (List Nat)) (step : DD V → V) : iterate dd Y step = none := by
  have hs : dd.same = [] := by
    have := h.sameLen
    rw [h0] at this
    exact List.length_eq_zero_iff.mp this
  have hu : updateSame dd = none := by
    unfold updateSame
    rw [hs]
    rfl
  have : getBounds dd Y = none := by
    unfold getBounds
    rw [hu]
    split
    · rename_i h1 _ _
      exact absurd h1 (by simp)
    · rfl
  simp only [iterate, this]

end

/-- What holds of all states of the solver object. -/
structure State (gm : GM V) (p : Problem V) (acc : Acc) (k : Kind) (ns : List (List Nat)) (calls : List (Call V)) (dd : DD V) : Prop where
  inv : Inv p ns calls dd
  gm : dd.gm = gm
  acc : dd.acc = acc
  covers : KindCovers p k → ∀ f, f < p.terms.length → dd.decomposition.facLists[f]? ≠ some []
  tree : k = .tree → dd.decomposition.numModels = 1 ∧ (∀ v, v < p.numLabels.length → 1 ≤ varCopies dd.decomposition.varLists 0 v) ∧
        ((bipartite (p.terms.map Term.vars)).IsAcyclic → ∀ v, varCopies dd.decomposition.varLists 0 v = if v < p.numLabels.length then 1 else 0)

theorem Reach.state [IsStrictOrderedRing V] {gm : GM V} {p : Problem V} (hb : Represents gm p) (hp : ∀ n ∈ p.numLabels, 0 < n) {k : Kind} (hk : KindOk p k)
    {acc : Acc} {ok : Solver V → Prop} (hok : ∀ s, ok s → ReturnsLabelings s) {dd : DD V} (h : Reach gm acc k ok dd) :
    ∃ ns calls, State gm p acc k ns calls dd ∧ (KindCovers p k → (∀ s, ok s → Exact acc s) → BoundOk p dd) := by
  induction h with
  | @make fill dd e =>
    obtain ⟨dd', ns, calls, e', hI, g1, g2, g3, g4, g5, g6⟩ := construct_spec hb hk acc fill
    rw [e] at e'
    injection e' with e' _
    subst e'
    exact ⟨ns, calls, ⟨hI, g1, g2, g5, g6⟩, fun _ _ l hl => by rw [g4] at hl; simp at hl⟩
  | @infer dd dd' solver step visit absAcc relAcc maxIter b hr hs e ih =>
    obtain ⟨ns, calls, hS, hB⟩ := ih
    unfold DualDecomposition.infer at e
    by_cases h0 : dd.decomposition.numModels = 0
    · cases maxIter with
      | zero =>
        simp only [inferLoop, Option.some.injEq, Prod.mk.injEq] at e
        rw [← e.2]
        exact ⟨ns, calls, hS, hB⟩
      | succ n =>
        simp only [inferLoop, no_models hS.inv h0] at e
        simp at e
    · obtain ⟨b', dd2, e2, h1, h2, h3, h4, _, _, _, _, h5⟩ := inferLoop_spec hp (hok solver hs) step visit absAcc relAcc maxIter 0 dd hS.inv (Nat.pos_of_ne_zero h0)
      rw [e] at e2
      simp only [Option.some.injEq, Prod.mk.injEq] at e2
      obtain ⟨_, rfl⟩ := e2
      refine ⟨ns, calls, ⟨h1, by rw [h3, hS.gm], by rw [h2, hS.acc], by rw [h4]; exact hS.covers, by rw [h4]; exact hS.tree⟩, ?_⟩
      intro hc hex
      exact h5 (by rw [hS.acc]; exact hex solver hs) (hS.covers hc) (hB hc hex)

/-! ### The theorems -/

section
variable [IsStrictOrderedRing V] {gm : GM V} {p : Problem V}

/-- The constructor succeeds and makes one submodel for each part of the decomposition. -/
theorem C63_construct (hb : BuiltModel gm p) {k : Kind} (hk : KindOk p k) (acc : Acc) (fill : Bool) :
    ∃ dd, construct gm acc fill k = .ok dd () ∧ dd.subs.length = dd.decomposition.numModels ∧ value dd = none ∧ bound dd = none := by
  obtain ⟨dd, ns, calls, e, hI, _, _, h1, h2, _⟩ := construct_spec hb.represents hk acc fill
  exact ⟨dd, e, by rw [hI.subs.len, hI.ctx.nsLen], by simp [value, h1], by simp [bound, h2]⟩

/-- In every state: if every factor has a copy, then the values of the submodels at labelings that give the copies of a variable the label `x` gives to the
variable sum to the value of the model at `x`, and such labelings exist for every labeling `x`. -/
theorem C63_sum (hb : BuiltModel gm p) (hp : ∀ n ∈ p.numLabels, 0 < n) {k : Kind} (hk : KindOk p k) (hc : KindCovers p k) {acc : Acc} {dd : DD V}
    (h : Reach gm acc k ReturnsLabelings dd) {x : List Nat} (hx : p.Labeling x) :
    (∃ Y, List.Forall₂ (fun (g : Sub V) y => RowLabeling g.numLabels y) dd.subs Y ∧ Agrees dd.decomposition.varLists x Y) ∧
    ∀ Y, List.Forall₂ (fun (g : Sub V) y => RowLabeling g.numLabels y) dd.subs Y → Agrees dd.decomposition.varLists x Y →
      ∃ w : List V, List.Forall₂ (fun (q : Sub V × List Nat) v => subValue dd.mem q.1 q.2 = some v) (dd.subs.zip Y) w ∧ w.sum = p.energy (sumOp V) x := by
  obtain ⟨ns, calls, hS, _⟩ := h.state hb.represents hp hk (fun _ hs => hs)
  have hrows := hS.inv.rows
  have key : ∀ Y, List.Forall₂ (fun (g : Sub V) y => RowLabeling g.numLabels y) dd.subs Y ↔ List.Forall₂ RowLabeling ns Y := by
    intro Y
    rw [← hrows, List.forall₂_map_left_iff]
  refine ⟨?_, ?_⟩
  · obtain ⟨Y, h1, h2⟩ := hS.inv.copyLabels hx
    exact ⟨Y, (key Y).mpr h1, h2⟩
  · intro Y hY hA
    exact (lowerBound_iff dd.mem dd.subs Y _ hY.length_eq).mp (hS.inv.agreeValue (hS.covers hc) hx ((key Y).mp hY) hA)

/-- `infer` has no undefined behaviour if there is a submodel. The value and the bound get no worse. -/
theorem C63_infer (hb : BuiltModel gm p) (hp : ∀ n ∈ p.numLabels, 0 < n) {k : Kind} (hk : KindOk p k) {acc : Acc} {dd : DD V}
    (h : Reach gm acc k ReturnsLabelings dd) (hne : dd.subs ≠ []) {solver : Solver V} (hs : ReturnsLabelings solver) (step : Nat → DD V → V)
    (visit : Nat → DD V → Bool) (absAcc relAcc : V) (maxIter : Nat) :
    ∃ b dd', infer dd solver step visit absAcc relAcc maxIter = some (b, dd') ∧ (0 < maxIter → value dd' ≠ none ∧ bound dd' ≠ none) ∧
      (∀ v, value dd = some v → ∃ v', value dd' = some v' ∧ acc.le v' v) ∧ ∀ l, bound dd = some l → ∃ l', bound dd' = some l' ∧ acc.le l l' := by
  obtain ⟨ns, calls, hS, _⟩ := h.state hb.represents hp hk (fun _ hs => hs)
  have hpos : 0 < dd.decomposition.numModels := by
    rw [← hS.inv.ctx.nsLen, ← hS.inv.subs.len]
    exact List.length_pos_iff.mpr hne
  obtain ⟨b, dd', e, _, _, _, _, _, himp, hsome, _⟩ := inferLoop_spec hp hs step visit absAcc relAcc maxIter 0 dd hS.inv hpos
  refine ⟨b, dd', e, ?_, ?_, ?_⟩
  · intro hm
    obtain ⟨h1, h2⟩ := hsome hm
    simp only [value, bound, ne_eq, Option.map_eq_none_iff]
    exact ⟨h1, h2⟩
  · intro v hv
    simp only [value, Option.map_eq_some_iff] at hv ⊢
    obtain ⟨q, hq, rfl⟩ := hv
    obtain ⟨q', hq', hle⟩ := himp.upper q hq
    exact ⟨q'.1, ⟨q', hq', rfl⟩, by rw [← hS.acc]; exact hle⟩
  · intro l hl
    simp only [bound, Option.map_eq_some_iff] at hl ⊢
    obtain ⟨q, hq, rfl⟩ := hl
    obtain ⟨q', hq', hle⟩ := himp.lower q hq
    exact ⟨-q', ⟨q', hq', rfl⟩, by rw [← hS.acc]; exact Acc.le_neg hle⟩

/-- If a decomposition covers a model with factors, there is a submodel. -/
theorem C63_submodels (hb : BuiltModel gm p) (hp : ∀ n ∈ p.numLabels, 0 < n) {k : Kind} (hk : KindOk p k) {acc : Acc} {dd : DD V}
    (h : Reach gm acc k ReturnsLabelings dd) : (k = .tree ∨ (KindCovers p k ∧ p.terms ≠ [])) → dd.subs ≠ [] := by
  obtain ⟨ns, calls, hS, _⟩ := h.state hb.represents hp hk (fun _ hs => hs)
  intro hor hnil
  have h0 : dd.decomposition.numModels = 0 := by
    rw [← hS.inv.ctx.nsLen, ← hS.inv.subs.len, hnil]
    rfl
  rcases hor with ht | ⟨hc, hne⟩
  · have := (hS.tree ht).1
    omega
  · have hpos := List.length_pos_iff.mpr hne
    have hf := hS.covers hc 0 hpos
    have w := hS.inv.ctx.wf
    have hl : 0 < dd.decomposition.facLists.length := by
      rw [w.facsLen, ← w.scopesLen]
      simpa using hpos
    rw [List.getElem?_eq_getElem hl] at hf
    obtain ⟨s, hs⟩ := List.exists_mem_of_ne_nil dd.decomposition.facLists[0] (fun hn => hf (by rw [hn]))
    have := (w.copies 0 _ s (List.getElem?_eq_getElem hl) hs).1
    omega

/-- `value()` is the value of the labeling that `arg` returns. -/
theorem C63_value (hb : BuiltModel gm p) (hp : ∀ n ∈ p.numLabels, 0 < n) {k : Kind} (hk : KindOk p k) {acc : Acc} {dd : DD V}
    (h : Reach gm acc k ReturnsLabelings dd) {v : V} (hv : value dd = some v) : p.Labeling (arg dd) ∧ v = p.energy (sumOp V) (arg dd) := by
  obtain ⟨ns, calls, hS, _⟩ := h.state hb.represents hp hk (fun _ hs => hs)
  simp only [value, Option.map_eq_some_iff] at hv
  obtain ⟨⟨w, x⟩, hq, rfl⟩ := hv
  have := hS.inv.upper w x hq
  simpa [arg, hq] using this

/-- With exact solvers, `bound()` is a bound on the values of all labelings. -/
theorem C63_bound (hb : BuiltModel gm p) (hp : ∀ n ∈ p.numLabels, 0 < n) {k : Kind} (hk : KindOk p k) (hc : KindCovers p k) {acc : Acc} {dd : DD V}
    (h : Reach gm acc k (Exact acc) dd) {l : V} (hl : bound dd = some l) {x : List Nat} (hx : p.Labeling x) : acc.le l (p.energy (sumOp V) x) := by
  obtain ⟨ns, calls, hS, hB⟩ := h.state hb.represents hp hk (fun _ hs => hs.1)
  simp only [bound, Option.map_eq_some_iff] at hl
  obtain ⟨l', hl', rfl⟩ := hl
  have := hB hc (fun _ hs => hs) l' hl' x hx
  rwa [hS.acc] at this

theorem Reach.mono {acc : Acc} {k : Kind} {ok ok' : Solver V → Prop} (hok : ∀ s, ok s → ok' s) {dd : DD V} (h : Reach gm acc k ok dd) : Reach gm acc k ok' dd := by
  induction h with
  | make e => exact .make e
  | infer _ hs e ih => exact .infer ih (hok _ hs) e

/-- If the loop ends by its test for convergence, the value of the returned labeling differs from that of each better labeling by at most the absolute
accuracy or by at most the relative accuracy times the value. -/
theorem C63_converged (hb : BuiltModel gm p) (hp : ∀ n ∈ p.numLabels, 0 < n) {k : Kind} (hk : KindOk p k) (hc : KindCovers p k) {acc : Acc} {dd dd' : DD V}
    (h : Reach gm acc k (Exact acc) dd) (hne : dd.subs ≠ []) {solver : Solver V} (hs : Exact acc solver) {step : Nat → DD V → V} {visit : Nat → DD V → Bool}
    {absAcc relAcc : V} {maxIter : Nat} (e : infer dd solver step visit absAcc relAcc maxIter = some (true, dd')) :
    ∃ v, value dd' = some v ∧ p.Labeling (arg dd') ∧ v = p.energy (sumOp V) (arg dd') ∧
      ∀ x, p.Labeling x → acc.le (p.energy (sumOp V) x) v → |v - p.energy (sumOp V) x| ≤ absAcc ∨ |v - p.energy (sumOp V) x| ≤ relAcc * |v| := by
  have h' : Reach gm acc k (Exact acc) dd' := .infer h hs e
  obtain ⟨ns, calls, hS, _⟩ := h.state hb.represents hp hk (fun _ hs => hs.1)
  have hpos : 0 < dd.decomposition.numModels := by
    rw [← hS.inv.ctx.nsLen, ← hS.inv.subs.len]
    exact List.length_pos_iff.mpr hne
  obtain ⟨b, dd2, e2, _, _, _, _, _, _, _, hconv, _⟩ := inferLoop_spec hp hs.1 step visit absAcc relAcc maxIter 0 dd hS.inv hpos
  unfold DualDecomposition.infer at e
  rw [e] at e2
  simp only [Option.some.injEq, Prod.mk.injEq] at e2
  obtain ⟨rfl, rfl⟩ := e2
  have hcv := hconv rfl
  unfold converged at hcv
  split at hcv
  · rename_i v x l hup hlow
    have hv : value dd' = some v := by simp [value, hup]
    have hval := C63_value hb hp hk (h'.mono (fun _ hs => hs.1)) hv
    refine ⟨v, hv, hval.1, hval.2, ?_⟩
    intro y hy hle
    have hbd := C63_bound hb hp hk hc h' (l := -l) (by simp [bound, hlow]) hy
    have hgap : |v - p.energy (sumOp V) y| ≤ |v + l| := by
      cases acc with
      | minimizer =>
        simp only [Acc.le] at hle hbd
        have h1 : 0 ≤ v - p.energy (sumOp V) y := sub_nonneg.mpr hle
        rw [abs_of_nonneg h1]
        refine le_trans ?_ (le_abs_self _)
        linarith
      | maximizer =>
        simp only [Acc.le] at hle hbd
        have h1 : v - p.energy (sumOp V) y ≤ 0 := sub_nonpos.mpr hle
        rw [abs_of_nonpos h1]
        refine le_trans ?_ (neg_le_abs _)
        linarith
    simp only [Option.some.injEq, Bool.or_eq_true, decide_eq_true_eq] at hcv
    rcases hcv with h1 | ⟨h1, h2⟩
    · exact .inl (le_trans hgap h1)
    · right
      rw [abs_div, div_le_iff₀ (abs_pos.mpr h1)] at h2
      exact le_trans hgap h2
  · simp at hcv

/-- If every variable has a copy and the labelings of the submodels agree in some iteration, then the value, the bound and the optimum are equal, and the
test for convergence is passed. -/
theorem C63_agreement (hb : BuiltModel gm p) (hp : ∀ n ∈ p.numLabels, 0 < n) {k : Kind} (hk : KindOk p k) (hc : KindCovers p k) {acc : Acc} {dd : DD V}
    (h : Reach gm acc k (Exact acc) dd) (hne : dd.subs ≠ []) {solver : Solver V} (hs : Exact acc solver) (it : Nat) (step : DD V → V)
    (hall : ∀ v, v < p.numLabels.length → ∃ m k, CopyOf dd.decomposition.varLists m k v) {x : List Nat}
    (hA : Agrees dd.decomposition.varLists x (dd.subs.map (fun g => solver it g dd.mem))) :
    ∃ dd' v, iterate dd (dd.subs.map (fun g => solver it g dd.mem)) step = some dd' ∧ value dd' = some v ∧ bound dd' = some v ∧
      p.Labeling (arg dd') ∧ v = p.energy (sumOp V) (arg dd') ∧ (∀ y, p.Labeling y → acc.le v (p.energy (sumOp V) y)) ∧
      ∀ absAcc relAcc, 0 ≤ absAcc → converged dd' absAcc relAcc = some true := by
  obtain ⟨ns, calls, hS, hB⟩ := h.state hb.represents hp hk (fun _ hs => hs.1)
  have hBd := hB hc (fun _ hs => hs)
  clear hB
  have hacc := hS.acc
  subst hacc
  have hpos : 0 < dd.decomposition.numModels := by
    rw [← hS.inv.ctx.nsLen, ← hS.inv.subs.len]
    exact List.length_pos_iff.mpr hne
  have hY := hS.inv.solved hp hs.1 it dd.mem
  obtain ⟨dd1, L, q, dflt, e, h1, ha, hg, hd, hsub, hL, hlow, hup, hle, hdl, hde, hcop⟩ := iterate_spec hS.inv hpos hp hY step
  have hAd : Agrees dd.decomposition.varLists dflt (dd.subs.map (fun g => solver it g dd.mem)) := by
    intro m k' v hcv
    obtain ⟨y, l, e1, e2, e3⟩ := hA m k' v hcv
    refine ⟨y, l, e1, e2, ?_⟩
    obtain ⟨copies, hcp, hmem⟩ := hcv
    obtain ⟨s, hsm, hse⟩ := hcop v copies hcp (List.ne_nil_of_mem hmem)
    obtain ⟨y', l', e1', e2', e3'⟩ := hA s.model s.id v ⟨copies, hcp, hsm⟩
    rw [← hse]
    rw [e3] at e3'
    injection e3' with e3'
    subst e3'
    exact entry_eq.mpr ⟨y', e1', e2'⟩
  have hval := hS.inv.agreeValue (hS.covers hc) hdl hY hAd
  rw [hL] at hval
  injection hval with hval
  rw [← hval] at hde
  obtain ⟨q1, q2⟩ := q
  obtain ⟨hq1, hq2⟩ := h1.upper q1 q2 hup
  have hb1 : ∀ y, p.Labeling y → dd.acc.le (-(accumulateValue dd.acc dd.negLower (-L))) (p.energy (sumOp V) y) := by
    intro y hy
    rcases (accumulateValue_spec dd.acc dd.negLower (-L)).1 with h2 | h2
    · rw [h2, neg_neg]
      exact hS.inv.boundOk (hS.covers hc) hp hs it hL hy
    · exact hBd _ h2 y hy
  have h3 : dd.acc.le L (-(accumulateValue dd.acc dd.negLower (-L))) := by
    have := Acc.le_neg (accumulateValue_spec dd.acc dd.negLower (-L)).2.1
    rwa [neg_neg] at this
  have h4 : dd.acc.le (-(accumulateValue dd.acc dd.negLower (-L))) q1 := by
    rw [hq2]
    exact hb1 q2 hq1
  have heq : -(accumulateValue dd.acc dd.negLower (-L)) = q1 := Acc.le_antisymm h4 (Acc.le_trans hde h3)
  refine ⟨dd1, q1, e, by simp [value, hup], by simp [bound, hlow, heq], by simpa [arg, hup] using hq1, by simpa [arg, hup] using hq2, ?_, ?_⟩
  · intro y hy
    rw [← heq]
    exact hb1 y hy
  · intro absAcc relAcc h0
    simp only [converged, hup, hlow, Option.some.injEq, Bool.or_eq_true, decide_eq_true_eq]
    left
    rw [show accumulateValue dd.acc dd.negLower (-L) = -q1 by rw [← heq, neg_neg], add_neg_cancel, abs_zero]
    exact h0

omit [IsStrictOrderedRing V] in
theorem copyOf_of_varCopies {varLists : List (List SubVariable)} {m v : Nat} (h : 0 < varCopies varLists m v) : ∃ k, CopyOf varLists m k v := by
  unfold varCopies at h
  obtain ⟨s, hs, hm⟩ := List.countP_pos_iff.mp h
  simp only [decide_eq_true_eq] at hm
  cases hl : varLists[v]? with
  | none => rw [hl] at hs; simp at hs
  | some l =>
    rw [hl] at hs
    exact ⟨s.id, l, hl, by rw [← hm]; exact hs⟩

omit [IsStrictOrderedRing V] in
theorem Inv.agrees_default {ns : List (List Nat)} {calls : List (Call V)} {dd : DD V} (h : Inv p ns calls dd) (hp : ∀ n ∈ p.numLabels, 0 < n) {Y : List (List Nat)}
    (hY : List.Forall₂ RowLabeling ns Y)
    (uniq : ∀ m k m' k' v, CopyOf dd.decomposition.varLists m k v → CopyOf dd.decomposition.varLists m' k' v → m = m' ∧ k = k') :
    ∃ x, p.Labeling x ∧ Agrees dd.decomposition.varLists x Y := by
  obtain ⟨dflt, _, hdl, hcop⟩ := h.default hp hY
  refine ⟨dflt, hdl, ?_⟩
  intro m k' v hcv
  have hcv' := hcv
  obtain ⟨copies, hcp, hmem⟩ := hcv'
  obtain ⟨s, hsm, hse⟩ := hcop v copies hcp (List.ne_nil_of_mem hmem)
  obtain ⟨rfl, rfl⟩ := uniq m k' s.model s.id v hcv ⟨copies, hcp, hsm⟩
  have hv := copyOf_lt hcv
  rw [h.ctx.wf.varsLen, h.ctx.vars, ← hdl.1] at hv
  rw [List.getElem?_eq_getElem hv] at hse
  obtain ⟨y, e1, e2⟩ := entry_eq.mp hse
  exact ⟨y, dflt[v], e1, e2, List.getElem?_eq_getElem hv⟩

/-- For a model without cycles, the tree decomposition and an exact solver for its single submodel find an optimal labeling in the first iteration. -/
theorem C63_tree (hb : BuiltModel gm p) (hp : ∀ n ∈ p.numLabels, 0 < n) (hac : (bipartite (p.terms.map Term.vars)).IsAcyclic) {acc : Acc} {dd : DD V}
    (h : Reach gm acc .tree (Exact acc) dd) {solver : Solver V} (hs : Exact acc solver) (step : Nat → DD V → V) (visit : Nat → DD V → Bool) (absAcc relAcc : V)
    {maxIter : Nat} (hm : 0 < maxIter) :
    ∃ b dd' v, infer dd solver step visit absAcc relAcc maxIter = some (b, dd') ∧ value dd' = some v ∧ bound dd' = some v ∧ p.Labeling (arg dd') ∧
      v = p.energy (sumOp V) (arg dd') ∧ ∀ y, p.Labeling y → acc.le v (p.energy (sumOp V) y) := by
  have hne := C63_submodels hb hp (k := .tree) trivial (h.mono (fun _ hs => hs.1)) (.inl rfl)
  obtain ⟨ns, calls, hS, _⟩ := h.state hb.represents hp (k := .tree) trivial (fun _ hs => hs.1)
  obtain ⟨hm1, hv1, hv2⟩ := hS.tree rfl
  have hv2 := hv2 hac
  have hpos : 0 < dd.decomposition.numModels := by omega
  have hY := hS.inv.solved hp hs.1 0 dd.mem
  have uniq : ∀ m k m' k' v, CopyOf dd.decomposition.varLists m k v → CopyOf dd.decomposition.varLists m' k' v → m = m' ∧ k = k' := by
    intro m k m' k' v hc hc'
    have h0 : m = 0 := by
      have := copy_model_lt hS.inv.ctx hc
      omega
    have h0' : m' = 0 := by
      have := copy_model_lt hS.inv.ctx hc'
      omega
    subst h0
    subst h0'
    obtain ⟨l, hl, hk⟩ := hc
    obtain ⟨l', hl', hk'⟩ := hc'
    rw [hl] at hl'
    injection hl' with hl'
    subst hl'
    have hcount := hv2 v
    unfold varCopies at hcount
    rw [hl, Option.getD_some, List.countP_eq_length_filter] at hcount
    have hle : (l.filter (fun s => decide (s.model = 0))).length ≤ 1 := by
      rw [hcount]
      split <;> omega
    have m1 : (⟨0, k⟩ : SubVariable) ∈ l.filter (fun s => decide (s.model = 0)) := List.mem_filter.mpr ⟨hk, by simp⟩
    have m2 : (⟨0, k'⟩ : SubVariable) ∈ l.filter (fun s => decide (s.model = 0)) := List.mem_filter.mpr ⟨hk', by simp⟩
    revert m1 m2 hle
    generalize l.filter (fun s => decide (s.model = 0)) = fl
    intro hle m1 m2
    match fl with
    | [] => simp at m1
    | [a] =>
      rw [List.mem_singleton] at m1 m2
      rw [← m1] at m2
      exact ⟨rfl, (congrArg SubVariable.id m2).symm⟩
    | a :: b :: t => simp at hle
  obtain ⟨dflt, _, hA⟩ := hS.inv.agrees_default hp hY uniq
  obtain ⟨dd1, v, e, g1, g2, g3, g4, g5, _⟩ := C63_agreement hb hp (k := .tree) trivial trivial h hne hs 0 (step 0)
    (fun v hv => ⟨0, copyOf_of_varCopies (by have := hv1 v hv; omega)⟩) hA
  obtain ⟨n, rfl⟩ : ∃ n, maxIter = n + 1 := ⟨maxIter - 1, by omega⟩
  have hstop : ∃ (b : Bool), (infer dd solver step visit absAcc relAcc (n + 1) = some (b, dd1) ∨
      infer dd solver step visit absAcc relAcc (n + 1) = inferLoop solver step visit absAcc relAcc n 1 dd1) := by
    refine ⟨!visit 0 dd1, ?_⟩
    simp only [infer, inferLoop, e]
    by_cases hv : visit 0 dd1 = true
    · rw [if_pos hv, hv]
      exact .inl rfl
    · rw [if_neg hv]
      simp only [value, bound, Option.map_eq_some_iff] at g1 g2
      obtain ⟨⟨q1, q2⟩, hq, rfl⟩ := g1
      obtain ⟨l, hl, _⟩ := g2
      obtain ⟨c, hc⟩ : ∃ c, converged dd1 absAcc relAcc = some c := ⟨_, by simp only [converged, hq, hl]; rfl⟩
      rw [hc]
      cases c with
      | true => left; simp [hv]
      | false => right; rfl
  obtain ⟨b, hstop⟩ := hstop
  have hone : infer dd solver step (fun _ _ => true) absAcc relAcc 1 = some (false, dd1) := by
    simp only [infer, inferLoop, e, if_true]
  have h1 : Reach gm acc .tree (Exact acc) dd1 := .infer h hs hone
  rcases hstop with hstop | hstop
  · exact ⟨b, dd1, v, hstop, g1, g2, g3, g4, g5⟩
  · obtain ⟨ns1, calls1, hS1, _⟩ := h1.state hb.represents hp (k := .tree) trivial (fun _ hs => hs.1)
    obtain ⟨b2, dd2, e2, hI2, ha2, _, hd2, _, himp, _, _, hbd⟩ := inferLoop_spec hp hs.1 step visit absAcc relAcc n 1 dd1 hS1.inv (by rw [(hS1.tree rfl).1]; omega)
    have e2' := hstop.trans e2
    have h2 : Reach gm acc .tree (Exact acc) dd2 := .infer h hs e2'
    simp only [value, bound, Option.map_eq_some_iff] at g1 g2
    obtain ⟨q, hq, hqv⟩ := g1
    obtain ⟨l, hl, hlv⟩ := g2
    obtain ⟨q', hq', hle⟩ := himp.upper q hq
    obtain ⟨l', hl', hle'⟩ := himp.lower l hl
    rw [hS1.acc] at hle hle'
    have hv2' : value dd2 = some q'.1 := by simp [value, hq']
    have hb2' : bound dd2 = some (-l') := by simp [bound, hl']
    obtain ⟨ha, hb'⟩ := C63_value hb hp (k := .tree) trivial (h2.mono (fun _ hs => hs.1)) hv2'
    have hqe : q'.1 = v := by
      rw [hqv] at hle
      refine Acc.le_antisymm hle ?_
      rw [hb']
      exact g5 _ ha
    have hbe : -l' = v := by
      have h5 := C63_bound hb hp (k := .tree) trivial trivial h2 hb2' ha
      rw [← hb', hqe] at h5
      have h6 := Acc.le_neg hle'
      rw [hlv] at h6
      exact Acc.le_antisymm h5 h6
    exact ⟨b2, dd2, v, e2', by rw [hv2', hqe], by rw [hb2', hbe], ha, by rw [← hqe]; exact hb', g5⟩

/-! ### Examples -/

omit [IsStrictOrderedRing V] in
theorem best_of_list (acc : Acc) (f : List Nat → Option V) : ∀ (l : List (List Nat)), l ≠ [] →
    ∃ x ∈ l, ∀ y ∈ l, ∀ b, f y = some b → ∃ a, f x = some a ∧ acc.le a b
  | [], h => absurd rfl h
  | [x], _ => ⟨x, by simp, by
      intro y hy b hb
      rw [List.mem_singleton] at hy
      subst hy
      exact ⟨b, hb, acc.le_refl b⟩⟩
  | x :: x' :: l, _ => by
    obtain ⟨z, hz, hbest⟩ := best_of_list acc f (x' :: l) (by simp)
    cases hx : f x with
    | none =>
      refine ⟨z, by simp [hz], ?_⟩
      intro y hy b hb
      rcases List.mem_cons.mp hy with rfl | hy
      · rw [hx] at hb
        simp at hb
      · exact hbest y hy b hb
    | some a =>
      by_cases h : ∃ c, f z = some c ∧ acc.le c a
      · obtain ⟨c, hc, hle⟩ := h
        refine ⟨z, by simp [hz], ?_⟩
        intro y hy b hb
        rcases List.mem_cons.mp hy with rfl | hy
        · rw [hx] at hb
          injection hb with hb
          subst hb
          exact ⟨c, hc, hle⟩
        · exact hbest y hy b hb
      · refine ⟨x, by simp, ?_⟩
        intro y hy b hb
        refine ⟨a, hx, ?_⟩
        rcases List.mem_cons.mp hy with rfl | hy
        · rw [hx] at hb
          injection hb with hb
          subst hb
          exact acc.le_refl a
        · obtain ⟨c, hc, hle⟩ := hbest y hy b hb
          have : acc.le a c := by
            rcases le_total a c with h1 | h1 <;> cases acc
            · exact h1
            · exact absurd ⟨c, hc, h1⟩ h
            · exact absurd ⟨c, hc, h1⟩ h
            · exact h1
          exact Acc.le_trans this hle

omit [IsStrictOrderedRing V] in
/-- Exact solvers exist. -/
theorem exact_exists (acc : Acc) : ∃ solver : Solver V, Exact acc solver := by
  have key : ∀ (_ : Nat) (g : Sub V) (mem : Mem V), ∃ x, (∀ n ∈ g.numLabels, 0 < n) → RowLabeling g.numLabels x ∧
      ∀ y b, RowLabeling g.numLabels y → subValue mem g y = some b → ∃ a, subValue mem g x = some a ∧ acc.le a b := by
    intro _ g mem
    by_cases hp : ∀ n ∈ g.numLabels, 0 < n
    · have hmem : ∀ x, x ∈ allTuples g.numLabels ↔ RowLabeling g.numLabels x := fun x => Icm.mem_labelings (p := (⟨g.numLabels, []⟩ : Problem V))
      have hne : allTuples g.numLabels ≠ [] := by
        have : List.replicate g.numLabels.length 0 ∈ allTuples g.numLabels := by
          rw [hmem]
          refine ⟨by simp, ?_⟩
          intro k l n hl hn
          rw [List.getElem?_replicate] at hl
          split at hl
          · injection hl with hl
            rw [← hl]
            exact hp n (List.mem_of_getElem? hn)
          · simp at hl
        exact List.ne_nil_of_mem this
      obtain ⟨x, hx, hbest⟩ := best_of_list acc (subValue mem g) _ hne
      exact ⟨x, fun _ => ⟨(hmem x).mp hx, fun y b hy hb => hbest y ((hmem y).mpr hy) b hb⟩⟩
    · exact ⟨[], fun h => absurd h hp⟩
  choose solver hs using key
  exact ⟨solver, fun it g mem hp => (hs it g mem hp).1, fun it g mem y b hp hy hb => (hs it g mem hp).2 y b hy hb⟩

end

/-- A cycle of three variables with two labels each: unary and pairwise factors. -/
def cycleOps : List (BuildOp ℚ) :=
  [.addVariable 2, .addVariable 2, .addVariable 2,
   .addFunction 0 ⟨[2], fun c => if c = [0] then 1 else 0⟩,
   .addFunction 0 ⟨[2, 2], fun c => if c.getD 0 0 = c.getD 1 0 then 1 else 0⟩,
   .addFactor 0 [0], .addFactor 1 [0, 1], .addFactor 1 [1, 2], .addFactor 1 [0, 2]]

theorem cycleOps_valid : ValidHistory 1 Built.empty cycleOps := by
  simp [cycleOps, ValidHistory, BuildOp.Valid, BuildOp.apply, Built.empty, restrict]

/-- The hypotheses are met for a cycle and its spanning trees, also after calls of `infer`. -/
example : ∃ gm, BuiltModel gm (builtAfter cycleOps).problem ∧ (∀ n ∈ (builtAfter cycleOps).problem.numLabels, 0 < n) ∧
    KindOk (builtAfter cycleOps).problem .spanningTrees ∧ KindCovers (builtAfter cycleOps).problem .spanningTrees ∧
    ∃ solver : Solver ℚ, Exact .minimizer solver ∧ ∃ dd b dd', Reach gm .minimizer .spanningTrees (Exact .minimizer) dd ∧ dd.subs ≠ [] ∧
      infer dd solver (fun it _ => 1 / (it + 1)) (fun _ _ => false) 0 0 10 = some (b, dd') ∧ Reach gm .minimizer .spanningTrees (Exact .minimizer) dd' := by
  obtain ⟨gm, hb⟩ := builtModel_exists cycleOps_valid
  obtain ⟨solver, hs⟩ := exact_exists (V := ℚ) .minimizer
  have hp : ∀ n ∈ (builtAfter cycleOps).problem.numLabels, 0 < n := by decide
  obtain ⟨dd, e, _⟩ := C63_construct hb (k := .spanningTrees) trivial .minimizer true
  have hr : Reach gm .minimizer .spanningTrees (Exact .minimizer) dd := .make e
  have hne := C63_submodels hb hp (k := .spanningTrees) trivial (hr.mono (fun _ hs => hs.1)) (.inr ⟨trivial, by
    simp [builtAfter, cycleOps, BuildOp.apply, Built.empty, Built.problem]⟩)
  obtain ⟨b, dd', e', _⟩ := C63_infer hb hp (k := .spanningTrees) trivial (hr.mono (fun _ hs => hs.1)) hne hs.1 (fun it _ => 1 / (it + 1)) (fun _ _ => false) 0 0 10
  exact ⟨gm, hb, hp, trivial, trivial, solver, hs, dd, b, dd', hr, hne, e', .infer hr hs e'⟩

/-- A path. -/
def pathOps : List (BuildOp ℚ) :=
  [.addVariable 2, .addVariable 3, .addVariable 2, .addFunction 0 ⟨[2], fun c => if c = [0] then 1 else 0⟩,
   .addFunction 0 ⟨[2, 3], fun c => if c.getD 0 0 = c.getD 1 0 then 1 else 0⟩, .addFunction 0 ⟨[3, 2], fun c => if c.getD 0 0 = c.getD 1 0 then 0 else 2⟩,
   .addFactor 0 [0], .addFactor 1 [0, 1], .addFactor 2 [1, 2]]

/-- The hypotheses of `C63_tree` are met. -/
example : ∃ gm, BuiltModel gm (builtAfter pathOps).problem ∧ (∀ n ∈ (builtAfter pathOps).problem.numLabels, 0 < n) ∧
    (bipartite ((builtAfter pathOps).problem.terms.map Term.vars)).IsAcyclic ∧ ∃ dd, Reach gm .maximizer .tree (Exact .maximizer) dd := by
  obtain ⟨c, h1⟩ : ∃ c, (Client.init 1).run (fun _ _ => false) pathOps = .ok () c := ⟨_, rfl⟩
  have hb : BuiltModel c.gm (builtAfter pathOps).problem :=
    ⟨1, _, pathOps, c, by intro f g h; simp at h, by simp [pathOps, ValidHistory, BuildOp.Valid, BuildOp.apply, Built.empty, restrict], h1, rfl, rfl⟩
  obtain ⟨dd, e, _⟩ := C63_construct hb (k := .tree) trivial .maximizer false
  refine ⟨c.gm, hb, by decide, ?_, dd, .make e⟩
  obtain ⟨hx, h2, _⟩ := factorGraph_exact hb.represents
  obtain ⟨b, e, hiff⟩ := FG.C12_isAcyclic _ hx
  rw [h2] at hiff
  apply hiff.mp
  cases h1
  injection e with e
  rw [← e]

/-- A variable without factors. -/
def loneOps : List (BuildOp ℚ) := [.addVariable 2]

/-- Two variables and one factor. -/
def pairOps : List (BuildOp ℚ) := [.addVariable 2, .addVariable 2, .addFunction 0 ⟨[2, 2], fun _ => -1⟩, .addFactor 0 [0, 1]]

/-- A model without factors has no spanning trees, and `infer` reads element 0 of an empty vector. -/
theorem C63_violated_no_submodel : ∃ gm, BuiltModel gm (builtAfter loneOps).problem ∧ KindCovers (builtAfter loneOps).problem .spanningTrees ∧
    ∃ dd, construct gm .minimizer true .spanningTrees = .ok dd () ∧
      ∀ solver step visit absAcc relAcc n, infer dd solver step visit absAcc relAcc (n + 1) = none := by
  obtain ⟨c, h1⟩ : ∃ c, (Client.init 1).run (fun _ _ => false) loneOps = .ok () c := ⟨_, rfl⟩
  have hb : BuiltModel c.gm (builtAfter loneOps).problem :=
    ⟨1, _, loneOps, c, by intro f g h; simp at h, by simp [loneOps, ValidHistory, BuildOp.Valid, BuildOp.apply, Built.empty], h1, rfl, rfl⟩
  refine ⟨c.gm, hb, trivial, ?_⟩
  obtain ⟨dd, ns, calls, e, hI, hg, _⟩ := construct_spec hb.represents (k := .spanningTrees) trivial .minimizer true
  refine ⟨dd, e, ?_⟩
  have h0 : dd.decomposition.numModels = 0 := by
    cases h1
    injection e with e _
    rw [← e]
    rfl
  intro solver step visit absAcc relAcc n
  simp only [infer, inferLoop, no_models hI h0]

/-- Open blocks that do not contain all factors: `bound()` is 0 although a labeling has the value -1. -/
theorem C63_violated_openBlocks : ∃ gm, BuiltModel gm (builtAfter pairOps).problem ∧ KindOk (builtAfter pairOps).problem (.openBlocks [[0], [1]]) ∧
    ∃ (solver : Solver ℚ) (dd dd' : DD ℚ) (b : Bool), Exact .minimizer solver ∧ construct gm .minimizer true (.openBlocks [[0], [1]]) = .ok dd () ∧
      infer dd solver (fun _ _ => 1) (fun _ _ => false) 0 0 1 = some (b, dd') ∧ bound dd' = some 0 ∧
      (builtAfter pairOps).problem.Labeling [0, 0] ∧ (builtAfter pairOps).problem.energy (sumOp ℚ) [0, 0] = -1 := by
  obtain ⟨c, h1⟩ : ∃ c, (Client.init 1).run (fun _ _ => false) pairOps = .ok () c := ⟨_, rfl⟩
  have hb : BuiltModel c.gm (builtAfter pairOps).problem :=
    ⟨1, _, pairOps, c, by intro f g h; simp at h, by simp [pairOps, ValidHistory, BuildOp.Valid, BuildOp.apply, Built.empty, restrict], h1, rfl, rfl⟩
  have hk : KindOk (builtAfter pairOps).problem (.openBlocks [[0], [1]]) := by
    refine ⟨by decide, ?_⟩
    decide
  obtain ⟨solver, hs⟩ := exact_exists (V := ℚ) .minimizer
  obtain ⟨dd, ns, calls, e, hI, hg, ha, hu, hl, _⟩ := construct_spec hb.represents hk .minimizer true
  have hp : ∀ n ∈ (builtAfter pairOps).problem.numLabels, 0 < n := by decide
  have h0 : dd.decomposition.numModels = 2 ∧ dd.decomposition.facLists = [[]] ∧ dd.decomposition.varLists = [[⟨0, 0⟩], [⟨1, 0⟩]] := by
    cases h1
    injection e with e _
    rw [← e]
    exact ⟨rfl, rfl, rfl⟩
  have hY := hI.solved hp hs.1 0 dd.mem
  obtain ⟨x, hx, hA⟩ := hI.agrees_default hp hY (by
    rw [h0.2.2]
    rintro m k m' k' v ⟨l, h2, h3⟩ ⟨l', h4, h5⟩
    rw [h2] at h4
    injection h4 with h4
    subst h4
    match v with
    | 0 =>
      simp only [List.getElem?_cons_zero, Option.some.injEq] at h2
      subst h2
      simp_all
    | 1 =>
      simp only [List.getElem?_cons_succ, List.getElem?_cons_zero, Option.some.injEq] at h2
      subst h2
      simp_all
    | v + 2 => simp at h2)
  obtain ⟨dd1, L, q, dflt, e1, _, _, _, _, _, hL, hlow, hup, _⟩ := iterate_spec hI (by rw [h0.1]; omega) hp hY (fun _ => 1)
  have hL0 : L = 0 := by
    rw [hI.lowerValue hI.mem hY, hI.sum dd.mem x _ hI.mem hI.zero hx hA] at hL
    injection hL with hL
    rw [← hL]
    simp [coveredSum, h0.2.1, builtAfter, pairOps, BuildOp.apply, Built.empty, Built.problem]
  obtain ⟨cv, hcv⟩ : ∃ cv, converged dd1 0 0 = some cv := by
    obtain ⟨q1, q2⟩ := q
    exact ⟨_, by simp only [converged, hup, hlow]; rfl⟩
  refine ⟨c.gm, hb, hk, solver, dd, dd1, cv, hs, e, ?_, ?_, ?_, ?_⟩
  · simp only [infer, inferLoop, e1, hcv]
    cases cv <;> rfl
  · simp [bound, hlow, hl, hL0, accumulateValue]
  · rw [← Icm.mem_labelings]
    decide
  · simp [Problem.energy, builtAfter, pairOps, BuildOp.apply, Built.empty, Built.problem, sumOp, Term.value]

end DualDecomposition
end OpenGM
