import Verif.Lemmas.DualDecompositionSubs
import Verif.Lemmas.EnergySum
import Mathlib.Tactic.FieldSimp
import Mathlib.Tactic.Ring
import Mathlib.Algebra.CharZero.Defs
import Mathlib.Algebra.BigOperators.Ring.List
/-
Dual decomposition: the blocks of dual variables and the factors that are added to the submodels.
-/
namespace OpenGM
namespace DualDecomposition
open Spec Decomposition
variable {V : Type} [Field V]

/-- The decomposition fits the model. -/
structure Ctx (gm : GM V) (p : Problem V) (d : Decomposition) (maxOrder : Nat) (ns : List (List Nat)) : Prop where
  rep : Represents gm p
  wf : WF (p.terms.map Term.vars) d
  vars : d.numVars = p.numLabels.length
  sorted : ∀ s ∈ d.facLists.flatten, s.indices.Pairwise (· < ·)
  emptySorted : ∀ q ∈ d.empty, q.1.length ≤ maxOrder → ∀ s ∈ q.2, s.indices.Pairwise (· < ·)
  shape : ns.map List.length = d.numSubVars
  states : ∀ m k v, CopyOf d.varLists m k v → entry ns m k = p.numLabels[v]?

/-- A block for copies of the variables `vars`. -/
def BlockOk (p : Problem V) (d : Decomposition) (b : Block) : Prop :=
  b.subs ≠ [] ∧ ∃ vars : List Nat, b.shape = restrict p.numLabels vars ∧ (∀ v ∈ vars, v < p.numLabels.length) ∧
    ∀ s ∈ b.subs, s.model < d.numModels ∧ CopiesOf d.varLists s.model s.indices vars

/-- One array for each sub-factor of each block. -/
def MemOk (blocks : List Block) (mem : Mem V) : Prop := mem.map List.length = blocks.map (fun b => b.subs.length)

/-- The arrays of each block sum to zero at each label tuple. -/
def ZeroSum (mem : Mem V) : Prop := ∀ block ∈ mem, ∀ c, (block.map (fun T => T c)).sum = 0

theorem scopesOf_eq {gm : GM V} {p : Problem V} (h : Represents gm p) : scopesOf gm = p.terms.map Term.vars := by
  unfold scopesOf
  have := h.factors
  revert this
  generalize gm.factors = fs
  generalize p.terms = ts
  intro hF
  induction hF with
  | nil => rfl
  | cons h1 _ ih => rw [List.map_cons, List.map_cons, ih, h1.scope]

theorem callGm_spec {gm : GM V} {p : Problem V} (h : Represents gm p) {f : Nat} {t : Term V} (ht : p.terms[f]? = some t) {c : List Nat}
    (hc : InShape (restrict p.numLabels t.vars) c) : callGm gm f c = some (t.table c) := by
  have hlen := h.factors.length_eq
  have hf : f < gm.factors.length := by rw [hlen]; exact (List.getElem?_eq_some_iff.mp ht).1
  obtain ⟨_, hget⟩ := List.forall₂_iff_get.mp h.factors
  have hm := hget f hf (by rw [← hlen]; exact hf)
  simp only [List.get_eq_getElem] at hm
  obtain ⟨_, ht'⟩ := List.getElem?_eq_some_iff.mp ht
  rw [ht'] at hm
  obtain ⟨fn, h1, h2, h3⟩ := hm.fn
  rw [h.labels] at h2
  rw [← h2] at hc
  unfold callGm
  rw [List.getElem?_eq_getElem hf]
  simp only [GM.callFactor, h1, callFn]
  cases hsh : fn.shape with
  | nil =>
    rw [hsh] at hc
    cases c with
    | nil =>
      simp only [if_true]
      rw [h3 [] (by rw [hsh]; trivial)]
    | cons a c => exact absurd hc (by simp [InShape])
  | cons n sh =>
    have hne : c ≠ [] := by
      rintro rfl
      rw [hsh] at hc
      exact hc
    simp only [if_neg hne, ← hsh]
    have := inShape_of_InShape _ _ [] hc
    rw [List.append_nil] at this
    rw [if_pos this, ← InShape_length _ _ hc, List.take_length, h3 c hc]

theorem shapeOf_spec {gm : GM V} {p : Problem V} (h : Represents gm p) : ∀ {vars : List Nat}, (∀ v ∈ vars, v < p.numLabels.length) →
    shapeOf gm vars = some (restrict p.numLabels vars)
  | [], _ => rfl
  | v :: vs, hv => by
    have hv0 := hv v (by simp)
    have ih := shapeOf_spec h (vars := vs) (fun w hw => hv w (by simp [hw]))
    unfold shapeOf at ih ⊢
    rw [List.mapM_cons, ih, h.labels, List.getElem?_eq_getElem hv0]
    simp [restrict, List.getElem?_eq_getElem hv0]

section
variable {gm : GM V} {p : Problem V} {d : Decomposition} {maxOrder : Nat} {ns : List (List Nat)}

theorem Ctx.range (h : Ctx gm p d maxOrder ns) {m : Nat} {ids vars : List Nat} (hc : CopiesOf d.varLists m ids vars) : ∀ v ∈ vars, v < p.numLabels.length := by
  unfold CopiesOf at hc
  induction hc with
  | nil => simp
  | cons h1 _ ih =>
    intro v hv
    rcases List.mem_cons.mp hv with rfl | hv
    · have := copyOf_lt h1
      rw [h.wf.varsLen, h.vars] at this
      exact this
    · exact ih v hv

theorem Ctx.nsLen (h : Ctx gm p d maxOrder ns) : ns.length = d.numModels := by
  have := congrArg List.length h.shape
  rw [List.length_map, h.wf.subVarsLen] at this
  exact this

/-- The variables of a submodel have the numbers of labels of the variables they are copies of. -/
theorem Ctx.row (h : Ctx gm p d maxOrder ns) {m : Nat} {row : List Nat} (hr : ns[m]? = some row) {ids vars : List Nat} (hc : CopiesOf d.varLists m ids vars) :
    (∀ k ∈ ids, k < row.length) ∧ restrict row ids = restrict p.numLabels vars := by
  unfold CopiesOf at hc
  induction hc with
  | nil => simp [restrict]
  | @cons k v ids vars h1 _ ih =>
    have e := h.states m k v h1
    have hv := copyOf_lt h1
    rw [h.wf.varsLen, h.vars] at hv
    rw [List.getElem?_eq_getElem hv, entry_eq] at e
    obtain ⟨row', e1, e2⟩ := e
    rw [hr] at e1
    injection e1 with e1
    subst e1
    refine ⟨?_, ?_⟩
    · intro k' hk
      rcases List.mem_cons.mp hk with rfl | hk
      · exact (List.getElem?_eq_some_iff.mp e2).1
      · exact ih.1 k' hk
    · simp only [restrict, List.map_cons, List.cons.injEq]
      refine ⟨?_, ih.2⟩
      rw [List.getD_eq_getElem?_getD, List.getD_eq_getElem?_getD, e2, List.getElem?_eq_getElem hv]

theorem Ctx.callOk (h : Ctx gm p d maxOrder ns) {s : SubFactor} {vars : List Nat} (hm : s.model < d.numModels) (hc : CopiesOf d.varLists s.model s.indices vars)
    (hs : s.indices.Pairwise (· < ·)) (fn : Fn (Val V)) (hf : fn.shape = restrict p.numLabels vars) : CallOk ns (⟨s.model, fn, s.indices⟩ : Call V) := by
  have hml : s.model < ns.length := by rw [h.nsLen]; exact hm
  obtain ⟨row, hrow⟩ : ∃ row, ns[s.model]? = some row := ⟨_, List.getElem?_eq_getElem hml⟩
  obtain ⟨h1, h2⟩ := h.row hrow hc
  exact ⟨hs, row, hrow, h1, by rw [h2]; exact hf⟩

theorem restrict_agrees {varLists : List (List SubVariable)} {x : List Nat} {Y : List (List Nat)} (hA : Agrees varLists x Y) {m : Nat} {ids vars : List Nat}
    (hc : CopiesOf varLists m ids vars) : restrict (Y.getD m []) ids = restrict x vars := by
  unfold CopiesOf at hc
  induction hc with
  | nil => rfl
  | @cons k v ids vars h1 _ ih =>
    obtain ⟨y, l, e1, e2, e3⟩ := hA m k v h1
    simp only [restrict, List.map_cons, List.cons.injEq] at ih ⊢
    refine ⟨?_, ih⟩
    rw [List.getD_eq_getElem?_getD, List.getD_eq_getElem?_getD (l := Y), e1, Option.getD_some, e2, List.getD_eq_getElem?_getD, e3]

/-! ### Blocks -/

theorem factorBlocks_spec (h : Ctx gm p d maxOrder ns) : ∀ (rest : List (List Nat × Nat)), (∀ q ∈ rest, (p.terms.map Term.vars)[q.2]? = some q.1) →
    ∃ bs, factorBlocks gm maxOrder d.facLists rest = some bs ∧ ∀ b ∈ bs, BlockOk p d b
  | [], _ => ⟨[], rfl, by simp⟩
  | (vars, f) :: rest, hq => by
    obtain ⟨bs, e, hb⟩ := factorBlocks_spec h rest (fun q hq' => hq q (by simp [hq']))
    have hf := hq (vars, f) (by simp)
    simp only at hf
    have hfl : f < d.facLists.length := by
      rw [h.wf.facsLen, ← h.wf.scopesLen]
      exact (List.getElem?_eq_some_iff.mp hf).1
    obtain ⟨l, hl⟩ : ∃ l, d.facLists[f]? = some l := ⟨_, List.getElem?_eq_getElem hfl⟩
    simp only [factorBlocks, hl]
    by_cases hd : hasDuals maxOrder l vars.length = true
    · have hne : l ≠ [] := by
        rintro rfl
        simp [hasDuals] at hd
      have hcop : ∀ s ∈ l, s.model < d.numModels ∧ CopiesOf d.varLists s.model s.indices vars := by
        intro s hs
        obtain ⟨h1, vars', h2, h3⟩ := h.wf.copies f l s hl hs
        rw [hf] at h2
        injection h2 with h2
        subst h2
        exact ⟨h1, h3⟩
      obtain ⟨s0, hs0⟩ := List.exists_mem_of_ne_nil l hne
      have hr := h.range (hcop s0 hs0).2
      rw [if_pos hd, shapeOf_spec h.rep hr, e]
      refine ⟨_, rfl, ?_⟩
      intro b hb'
      rcases List.mem_cons.mp hb' with rfl | hb'
      · exact ⟨hne, vars, rfl, hr, hcop⟩
      · exact hb b hb'
    · rw [if_neg hd, e]
      exact ⟨bs, rfl, hb⟩

theorem emptyBlocks_spec (h : Ctx gm p d maxOrder ns) : ∀ (es : List (List Nat × List SubFactor)), (∀ q ∈ es, q ∈ d.empty) →
    ∃ bs, emptyBlocks gm maxOrder es = some bs ∧ ∀ b ∈ bs, BlockOk p d b
  | [], _ => ⟨[], rfl, by simp⟩
  | (vars, l) :: rest, hq => by
    obtain ⟨bs, e, hb⟩ := emptyBlocks_spec h rest (fun q hq' => hq q (by simp [hq']))
    have hm := hq (vars, l) (by simp)
    simp only [emptyBlocks]
    by_cases hd : hasDuals maxOrder l vars.length = true
    · have hne : l ≠ [] := by
        rintro rfl
        simp [hasDuals] at hd
      have hcop : ∀ s ∈ l, s.model < d.numModels ∧ CopiesOf d.varLists s.model s.indices vars := fun s hs => h.wf.emptyCopies vars l s hm hs
      obtain ⟨s0, hs0⟩ := List.exists_mem_of_ne_nil l hne
      have hr := h.range (hcop s0 hs0).2
      rw [if_pos hd, shapeOf_spec h.rep hr, e]
      refine ⟨_, rfl, ?_⟩
      intro b hb'
      rcases List.mem_cons.mp hb' with rfl | hb'
      · exact ⟨hne, vars, rfl, hr, hcop⟩
      · exact hb b hb'
    · rw [if_neg hd, e]
      exact ⟨bs, rfl, hb⟩

/-! ### Calls -/

theorem dualCalls_eq (f size : Nat) (block : Block) (b : Nat) : ∀ (l : List SubFactor) (i : Nat), i + l.length ≤ block.subs.length →
    dualCalls gm f size block b l i =
      some ((l.zipIdx i).map (fun q => ⟨q.1.model, viewOffset gm f (1 / (size : V)) block.shape b q.2, q.1.indices⟩))
  | [], _, _ => rfl
  | s :: rest, i, h => by
    rw [List.length_cons] at h
    rw [dualCalls, if_pos (by omega), dualCalls_eq f size block b rest (i + 1) (by omega)]
    rfl

theorem offsetCalls_eq (block : Block) (b : Nat) : ∀ (l : List SubFactor) (i : Nat), i + l.length ≤ block.subs.length →
    offsetCalls (V := V) block b l i = some ((l.zipIdx i).map (fun q => ⟨q.1.model, offset block.shape b q.2, q.1.indices⟩))
  | [], _, _ => rfl
  | s :: rest, i, h => by
    rw [List.length_cons] at h
    rw [offsetCalls, if_pos (by omega), offsetCalls_eq block b rest (i + 1) (by omega)]
    rfl

theorem memOk_block {blocks : List Block} {mem : Mem V} (h : MemOk blocks mem) {b : Nat} {block : Block} (hb : blocks[b]? = some block) :
    ∃ Ts, mem[b]? = some Ts ∧ Ts.length = block.subs.length := by
  have := congrArg (fun l => l[b]?) h
  simp only [List.getElem?_map, hb, Option.map_some, Option.map_eq_some_iff] at this
  exact this

/-- The values that the dual variables of a block contribute. -/
theorem sum_duals {α : Type} (c : List Nat) (mem : Mem V) (b : Nat) (Ts : List (List Nat → V)) (hb : mem[b]? = some Ts) : ∀ (l : List α) (i : Nat), i + l.length = Ts.length →
    ((l.zipIdx i).map (fun q => (readDual mem b q.2 c).getD 0)).sum = ((Ts.drop i).map (fun T => T c)).sum
  | [], i, h => by
    rw [List.drop_eq_nil_of_le (by simp at h; omega)]
    rfl
  | a :: l, i, h => by
    rw [List.length_cons] at h
    have hi : i < Ts.length := by omega
    rw [List.zipIdx_cons, List.map_cons, List.sum_cons, sum_duals c mem b Ts hb l (i + 1) (by omega), List.drop_eq_getElem_cons hi, List.map_cons, List.sum_cons]
    simp only [readDual, hb, List.getElem?_eq_getElem hi, Option.getD_some]

/-- What one call needs. -/
structure Good (ns : List (List Nat)) (blocks : List Block) (c : Call V) : Prop where
  ok : CallOk ns c
  total : ∀ mem, MemOk blocks mem → ∀ t, InShape c.fn.shape t → ∃ w, c.fn.table t mem = some w

theorem readDual_some {blocks : List Block} {mem : Mem V} (h : MemOk blocks mem) {b i : Nat} {block : Block} (hb : blocks[b]? = some block) (hi : i < block.subs.length)
    (c : List Nat) : ∃ w, readDual mem b i c = some w := by
  obtain ⟨Ts, h1, h2⟩ := memOk_block h hb
  exact ⟨_, by simp only [readDual, h1, List.getElem?_eq_getElem (show i < Ts.length by omega)]; rfl⟩

theorem mem_zipIdx_zero {α : Type} {l : List α} {q : α × Nat} (h : q ∈ l.zipIdx) : q.1 ∈ l ∧ q.2 < l.length := by
  rw [List.mem_zipIdx_iff_getElem?] at h
  exact ⟨List.mem_of_getElem? h, (List.getElem?_eq_some_iff.mp h).1⟩

theorem emptyCalls_spec (h : Ctx gm p d maxOrder ns) (blocks : List Block) : ∀ (es : List (List Nat × List SubFactor)) (dc : Nat) (bs : List Block), (∀ q ∈ es, q ∈ d.empty) →
    emptyBlocks gm maxOrder es = some bs → blocks.drop dc = bs →
    ∃ calls, emptyCalls (V := V) maxOrder blocks es dc = some calls ∧ (∀ c ∈ calls, Good ns blocks c) ∧
      ∀ (mem : Mem V) (x : List Nat) (Y : List (List Nat)), MemOk blocks mem → ZeroSum mem → p.Labeling x → Agrees d.varLists x Y →
        (calls.map (fun c => (callVal mem Y c).getD 0)).sum = 0
  | [], dc, bs, _, _, _ => ⟨[], rfl, by simp, by simp⟩
  | (vars, l) :: rest, dc, bs, hq, e, hdrop => by
    have hm := hq (vars, l) (by simp)
    simp only [emptyBlocks] at e
    simp only [emptyCalls]
    by_cases hd : hasDuals maxOrder l vars.length = true
    · rw [if_pos hd] at e ⊢
      split at e
      · rename_i shape bs' e1 e2
        injection e with e
        subst e
        have hb : blocks[dc]? = some ⟨shape, l⟩ := by
          have := congrArg (fun l => l[0]?) hdrop
          simpa using this
        have hdrop' : blocks.drop (dc + 1) = bs' := by
          rw [← List.drop_drop, hdrop]
          rfl
        obtain ⟨calls, e3, h1, h2⟩ := emptyCalls_spec h blocks rest (dc + 1) bs' (fun q hq' => hq q (by simp [hq'])) e2 hdrop'
        have hcop : ∀ s ∈ l, s.model < d.numModels ∧ CopiesOf d.varLists s.model s.indices vars := fun s hs => h.wf.emptyCopies vars l s hm hs
        have hord : vars.length ≤ maxOrder := by
          simp [hasDuals] at hd
          exact hd.2
        have hne : l ≠ [] := by
          rintro rfl
          simp [hasDuals] at hd
        obtain ⟨s0, hs0⟩ := List.exists_mem_of_ne_nil l hne
        have hr := h.range (hcop s0 hs0).2
        rw [shapeOf_spec h.rep hr] at e1
        injection e1 with e1
        subst e1
        rw [hb]
        simp only
        rw [offsetCalls_eq _ _ _ _ (by simp), e3]
        refine ⟨_, rfl, ?_, ?_⟩
        · intro c hc
          rcases List.mem_append.mp hc with hc | hc
          · obtain ⟨q, hq1, rfl⟩ := List.mem_map.mp hc
            obtain ⟨hs, hi⟩ := mem_zipIdx_zero hq1
            refine ⟨h.callOk (hcop _ hs).1 (hcop _ hs).2 (h.emptySorted _ hm hord _ hs) _ rfl, ?_⟩
            intro mem hmem t _
            exact readDual_some hmem hb hi t
          · exact h1 c hc
        · intro mem x Y hmem hz hx hA
          rw [List.map_append, List.sum_append, h2 mem x Y hmem hz hx hA, add_zero, List.map_map]
          obtain ⟨Ts, hT1, hT2⟩ := memOk_block hmem hb
          have : ∀ q ∈ l.zipIdx, ((fun c => (callVal mem Y c).getD 0) ∘ fun (q : SubFactor × Nat) => (⟨q.1.model, offset (restrict p.numLabels vars) dc q.2, q.1.indices⟩ : Call V)) q =
              (fun (q : SubFactor × Nat) => (readDual mem dc q.2 (restrict x vars)).getD 0) q := by
            intro q hq1
            obtain ⟨hs, hi⟩ := mem_zipIdx_zero hq1
            simp only [Function.comp, callVal, offset, restrict_agrees hA (hcop _ hs).2]
          rw [List.map_congr_left this, sum_duals _ mem dc Ts hT1 l 0 (by simp [hT2])]
          exact hz Ts (List.mem_of_getElem? hT1) _
      · simp at e
    · rw [if_neg hd] at e ⊢
      exact emptyCalls_spec h blocks rest dc bs (fun q hq' => hq q (by simp [hq'])) e hdrop

theorem sum_const_scale [CharZero V] {α : Type} (l : List α) (hl : l ≠ []) (x : V) : (l.map (fun _ => 1 / (l.length : V) * x)).sum = x := by
  rw [List.map_const', List.sum_replicate, nsmul_eq_mul]
  have : (l.length : V) ≠ 0 := by
    have := List.length_pos_iff.mpr hl
    exact_mod_cast (by omega : l.length ≠ 0)
  field_simp

theorem factorCalls_spec [CharZero V] (h : Ctx gm p d maxOrder ns) (blocks es : List Block) (hes : emptyBlocks gm maxOrder d.empty = some es) :
    ∀ (rest : List (List Nat × Nat)) (dc : Nat) (bs : List Block), (∀ q ∈ rest, (p.terms.map Term.vars)[q.2]? = some q.1) →
    factorBlocks gm maxOrder d.facLists rest = some bs → blocks.drop dc = bs ++ es →
    ∃ calls, factorCalls gm maxOrder d.facLists d.empty blocks rest dc = some calls ∧ (∀ c ∈ calls, Good ns blocks c) ∧
      ∀ (mem : Mem V) (x : List Nat) (Y : List (List Nat)), MemOk blocks mem → ZeroSum mem → p.Labeling x → Agrees d.varLists x Y →
        (calls.map (fun c => (callVal mem Y c).getD 0)).sum =
          (rest.map (fun q => if d.facLists[q.2]? = some [] then 0 else termVal (sumOp V) p x q.2)).sum
  | [], dc, bs, _, e, hdrop => by
    simp only [factorBlocks, Option.some.injEq] at e
    subst e
    exact emptyCalls_spec h blocks d.empty dc es (fun _ hq => hq) hes hdrop
  | (vars, f) :: rest, dc, bs, hq, e, hdrop => by
    have hf := hq (vars, f) (by simp)
    simp only at hf
    have hfl : f < d.facLists.length := by
      rw [h.wf.facsLen, ← h.wf.scopesLen]
      exact (List.getElem?_eq_some_iff.mp hf).1
    obtain ⟨l, hl⟩ : ∃ l, d.facLists[f]? = some l := ⟨_, List.getElem?_eq_getElem hfl⟩
    obtain ⟨t, ht, htv⟩ : ∃ t, p.terms[f]? = some t ∧ t.vars = vars := by
      rw [List.getElem?_map, Option.map_eq_some_iff] at hf
      exact hf
    have hr : ∀ v ∈ vars, v < p.numLabels.length := by
      have hlen := h.rep.factors.length_eq
      obtain ⟨_, hget⟩ := List.forall₂_iff_get.mp h.rep.factors
      have hfp := (List.getElem?_eq_some_iff.mp ht).1
      have hm := hget f (by rw [hlen]; exact hfp) hfp
      simp only [List.get_eq_getElem] at hm
      have := hm.range
      rw [(List.getElem?_eq_some_iff.mp ht).2, htv, h.rep.labels] at this
      exact this
    have hcop : ∀ s ∈ l, s.model < d.numModels ∧ CopiesOf d.varLists s.model s.indices vars := by
      intro s hs
      obtain ⟨h1, vars', h2, h3⟩ := h.wf.copies f l s hl hs
      rw [hf] at h2
      injection h2 with h2
      subst h2
      exact ⟨h1, h3⟩
    have hsort : ∀ s ∈ l, s.indices.Pairwise (· < ·) := fun s hs => h.sorted s (List.mem_flatten.mpr ⟨l, List.mem_of_getElem? hl, hs⟩)
    have hcall : ∀ c, InShape (restrict p.numLabels vars) c → callGm gm f c = some (t.table c) := by
      intro c hc
      exact callGm_spec h.rep ht (by rw [htv]; exact hc)
    have hval : ∀ x, termVal (sumOp V) p x f = t.table (restrict x vars) := by
      intro x
      simp only [termVal, ht, Term.value, htv]
    have hin : ∀ x, p.Labeling x → InShape (restrict p.numLabels vars) (restrict x vars) := fun x hx => InShape_restrict _ _ _ hx.1 hx.2 hr
    simp only [factorBlocks, hl] at e
    simp only [factorCalls, hl, shapeOf_spec h.rep hr]
    by_cases hd : hasDuals maxOrder l vars.length = true
    · rw [if_pos hd, shapeOf_spec h.rep hr] at e
      rw [if_pos hd]
      split at e
      · rename_i shape bs' e1 e2
        injection e1 with e1
        subst e1
        injection e with e
        subst e
        have hb : blocks[dc]? = some ⟨restrict p.numLabels vars, l⟩ := by
          have := congrArg (fun l => l[0]?) hdrop
          simpa using this
        have hdrop' : blocks.drop (dc + 1) = bs' ++ es := by
          rw [← List.drop_drop, hdrop]
          rfl
        obtain ⟨calls, e3, h1, h2⟩ := factorCalls_spec h blocks es hes rest (dc + 1) bs' (fun q hq' => hq q (by simp [hq'])) e2 hdrop'
        have hne : l ≠ [] := by
          rintro rfl
          simp [hasDuals] at hd
        rw [hb]
        simp only
        rw [dualCalls_eq _ _ _ _ _ _ (by simp), e3]
        refine ⟨_, rfl, ?_, ?_⟩
        · intro c hc
          rcases List.mem_append.mp hc with hc | hc
          · obtain ⟨q, hq1, rfl⟩ := List.mem_map.mp hc
            obtain ⟨hs, hi⟩ := mem_zipIdx_zero hq1
            refine ⟨h.callOk (hcop _ hs).1 (hcop _ hs).2 (hsort _ hs) _ rfl, ?_⟩
            intro mem hmem c' hc'
            obtain ⟨w, hw⟩ := readDual_some hmem hb hi c'
            exact ⟨_, by simp only [viewOffset, hcall c' hc', hw]; rfl⟩
          · exact h1 c hc
        · intro mem x Y hmem hz hx hA
          rw [List.map_append, List.sum_append, h2 mem x Y hmem hz hx hA, List.map_map, List.map_cons, List.sum_cons]
          congr 1
          simp only [hl, Option.some.injEq, if_neg hne]
          obtain ⟨Ts, hT1, hT2⟩ := memOk_block hmem hb
          have : ∀ q ∈ l.zipIdx, ((fun c => (callVal mem Y c).getD 0) ∘ fun (q : SubFactor × Nat) => (⟨q.1.model, viewOffset gm f (1 / (l.length : V)) (restrict p.numLabels vars) dc q.2, q.1.indices⟩ : Call V)) q =
              (fun (q : SubFactor × Nat) => 1 / (l.length : V) * termVal (sumOp V) p x f + (readDual mem dc q.2 (restrict x vars)).getD 0) q := by
            intro q hq1
            obtain ⟨hs, hi⟩ := mem_zipIdx_zero hq1
            obtain ⟨w, hw⟩ := readDual_some hmem hb hi (restrict x vars)
            simp only [Function.comp, callVal, viewOffset, restrict_agrees hA (hcop _ hs).2, hcall _ (hin x hx), hw, hval, Option.getD_some]
          rw [List.map_congr_left this, List.sum_map_add, sum_duals _ mem dc Ts hT1 l 0 (by simp [hT2]), List.drop_zero,
            hz Ts (List.mem_of_getElem? hT1) _, add_zero]
          have hz' : l.zipIdx ≠ [] := by simpa using hne
          have := sum_const_scale l.zipIdx hz' (termVal (sumOp V) p x f)
          rw [List.length_zipIdx] at this
          exact this
      · simp at e
    · rw [if_neg hd] at e ⊢
      obtain ⟨calls, e3, h1, h2⟩ := factorCalls_spec h blocks es hes rest dc bs (fun q hq' => hq q (by simp [hq'])) e hdrop
      rw [e3]
      refine ⟨_, rfl, ?_, ?_⟩
      · intro c hc
        rcases List.mem_append.mp hc with hc | hc
        · obtain ⟨s, hs, rfl⟩ := List.mem_map.mp hc
          refine ⟨h.callOk (hcop _ hs).1 (hcop _ hs).2 (hsort _ hs) _ rfl, ?_⟩
          intro mem hmem c' hc'
          exact ⟨_, by simp only [view, hcall c' hc']; rfl⟩
        · exact h1 c hc
      · intro mem x Y hmem hz hx hA
        rw [List.map_append, List.sum_append, h2 mem x Y hmem hz hx hA, List.map_map, List.map_cons, List.sum_cons]
        congr 1
        have : ∀ s ∈ l, ((fun c => (callVal mem Y c).getD 0) ∘ fun (s : SubFactor) => (⟨s.model, view gm f (1 / (l.length : V)) (restrict p.numLabels vars), s.indices⟩ : Call V)) s =
            (fun _ => 1 / (l.length : V) * termVal (sumOp V) p x f) s := by
          intro s hs
          simp only [Function.comp, callVal, view, restrict_agrees hA (hcop _ hs).2, hcall _ (hin x hx), hval, Option.getD_some]
        rw [List.map_congr_left this]
        by_cases hne : l = []
        · simp [hl, hne]
        · rw [sum_const_scale l hne]
          simp [hl, hne]

end
end DualDecomposition
end OpenGM
