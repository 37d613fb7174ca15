import Verif.Lemmas.DualDecompositionSteps
/-
Dual decomposition: `getBounds` and the iterations.
-/
namespace OpenGM
namespace DualDecomposition
open Spec Decomposition
variable {V : Type} [Field V] [LinearOrder V]

/-- `a` is at least as good as `b`. -/
def Acc.le : Acc → V → V → Prop
  | .minimizer, a, b => a ≤ b
  | .maximizer, a, b => b ≤ a

theorem Acc.le_refl (acc : Acc) (a : V) : acc.le a a := by cases acc <;> exact _root_.le_refl a

theorem Acc.le_trans {acc : Acc} {a b c : V} (h : acc.le a b) (h' : acc.le b c) : acc.le a c := by
  cases acc
  · exact _root_.le_trans h h'
  · exact _root_.le_trans h' h

theorem Acc.le_antisymm {acc : Acc} {a b : V} (h : acc.le a b) (h' : acc.le b a) : a = b := by
  cases acc
  · exact _root_.le_antisymm h h'
  · exact _root_.le_antisymm h' h

theorem Acc.le_of_bop {acc : Acc} {a b : V} (h : acc.bop a b = true) : acc.le a b := by
  cases acc <;> simp only [Acc.bop, decide_eq_true_eq] at h
  · exact le_of_lt h
  · exact le_of_lt h

theorem Acc.le_of_not_bop {acc : Acc} {a b : V} (h : ¬ acc.bop a b = true) : acc.le b a := by
  cases acc <;> simp only [Acc.bop, decide_eq_true_eq] at h
  · exact not_lt.mp h
  · exact not_lt.mp h

theorem Acc.le_add [IsStrictOrderedRing V] {acc : Acc} {a b c d : V} (h : acc.le a b) (h' : acc.le c d) : acc.le (a + c) (b + d) := by
  cases acc
  · exact add_le_add h h'
  · exact add_le_add h h'

theorem Acc.le_neg [IsStrictOrderedRing V] {acc : Acc} {a b : V} (h : acc.le a b) : acc.le (-b) (-a) := by
  cases acc
  · exact neg_le_neg h
  · exact neg_le_neg h

/-- The best value is kept. -/
theorem accumulate_spec (acc : Acc) (cur : Option (V × List Nat)) (v : V) (x : List Nat) :
    ∃ r, accumulate acc cur v x = some r ∧ (r = (v, x) ∨ cur = some r) ∧ acc.le r.1 v ∧ ∀ q, cur = some q → acc.le r.1 q.1 := by
  cases cur with
  | none => exact ⟨_, rfl, .inl rfl, acc.le_refl v, by simp⟩
  | some q =>
    obtain ⟨w, y⟩ := q
    simp only [accumulate]
    by_cases h : acc.bop v w = true
    · rw [if_pos h]
      exact ⟨_, rfl, .inl rfl, acc.le_refl v, by rintro q ⟨⟩; exact Acc.le_of_bop h⟩
    · rw [if_neg h]
      exact ⟨_, rfl, .inr rfl, Acc.le_of_not_bop h, by rintro q ⟨⟩; exact acc.le_refl w⟩

theorem accumulateValue_spec (acc : Acc) (cur : Option V) (v : V) :
    (accumulateValue acc cur v = v ∨ cur = some (accumulateValue acc cur v)) ∧ acc.le (accumulateValue acc cur v) v ∧
      ∀ q, cur = some q → acc.le (accumulateValue acc cur v) q := by
  cases cur with
  | none => exact ⟨.inl rfl, acc.le_refl v, by simp⟩
  | some q =>
    simp only [accumulateValue]
    by_cases h : acc.bop v q = true
    · rw [if_pos h]
      exact ⟨.inl rfl, acc.le_refl v, by rintro q ⟨⟩; exact Acc.le_of_bop h⟩
    · rw [if_neg h]
      exact ⟨.inr rfl, Acc.le_of_not_bop h, by rintro q ⟨⟩; exact acc.le_refl q⟩

/-! ### modelWithSameVariables_ -/

theorem markDifferent_spec : ∀ (vis : List (SubVariable × Nat)) (same : List (Option Bool)), (∀ q ∈ vis, q.1.model < same.length) →
    ∃ same', markDifferent vis same = some same' ∧ same'.length = same.length ∧
      ∀ (m : Nat) (t : Option Bool), same'[m]? = some t → t = some false ∨ (same[m]? = some t ∧ ∀ q ∈ vis, q.1.model = m → q.1.id = q.2)
  | [], same, _ => ⟨same, rfl, rfl, fun m t h => .inr ⟨h, by simp⟩⟩
  | q :: vis, same, hv => by
    have hq := hv q (by simp)
    by_cases hne : q.1.id ≠ q.2
    · obtain ⟨same', e, hl, h⟩ := markDifferent_spec vis (same.set q.1.model (some false)) (by
        intro q' hq'
        rw [List.length_set]
        exact hv q' (by simp [hq']))
      refine ⟨same', ?_, by rw [hl, List.length_set], ?_⟩
      · unfold markDifferent at e ⊢
        rw [List.foldlM_cons, if_pos hne, setAt_of_lt _ hq]
        exact e
      · intro m t ht
        rcases h m t ht with h1 | ⟨h1, h2⟩
        · exact .inl h1
        · by_cases hm : q.1.model = m
          · left
            subst hm
            rw [List.getElem?_set_self hq] at h1
            exact (Option.some.inj h1).symm
          · right
            rw [List.getElem?_set_ne hm] at h1
            refine ⟨h1, ?_⟩
            intro q' hq' hm'
            rcases List.mem_cons.mp hq' with rfl | hq'
            · exact absurd hm' hm
            · exact h2 q' hq' hm'
    · obtain ⟨same', e, hl, h⟩ := markDifferent_spec vis same (fun q' hq' => hv q' (by simp [hq']))
      refine ⟨same', ?_, hl, ?_⟩
      · unfold markDifferent at e ⊢
        rw [List.foldlM_cons, if_neg hne]
        exact e
      · intro m t ht
        rcases h m t ht with h1 | ⟨h1, h2⟩
        · exact .inl h1
        · refine .inr ⟨h1, ?_⟩
          intro q' hq' hm'
          rcases List.mem_cons.mp hq' with rfl | hq'
          · exact not_not.mp hne
          · exact h2 q' hq' hm'

omit [Field V] [LinearOrder V] in
theorem markSame_spec (n : Nat) : ∀ (gs : List (Sub V)) (ts : List (Option Bool)), gs.length = ts.length →
    ∃ ts', markSame n gs ts = some ts' ∧ ts'.length = ts.length ∧
      ∀ (m : Nat) (t' : Option Bool), ts'[m]? = some t' → t' ≠ none ∧
        (t' = some true → ∃ (g : Sub V) (t : Option Bool), gs[m]? = some g ∧ ts[m]? = some t ∧ n = g.numberOfVariables ∧ t ≠ some false)
  | [], [], _ => ⟨[], rfl, rfl, by simp⟩
  | [], _ :: _, h => by simp at h
  | _ :: _, [], h => by simp at h
  | g :: gs, t :: ts, h => by
    obtain ⟨ts', e, hl, hs⟩ := markSame_spec n gs ts (by simpa using h)
    simp only [markSame, e]
    refine ⟨_, rfl, by simp [hl], ?_⟩
    intro m t' ht
    cases m with
    | zero =>
      rw [List.getElem?_cons_zero] at ht
      injection ht with ht
      by_cases hn : n ≠ g.numberOfVariables
      · simp only [if_pos hn, reduceCtorEq, if_false] at ht
        subst ht
        simp
      · simp only [if_neg hn] at ht
        subst ht
        refine ⟨by split <;> simp_all, ?_⟩
        intro h1
        refine ⟨g, t, rfl, rfl, not_not.mp hn, ?_⟩
        rintro rfl
        simp at h1
    | succ m =>
      rw [List.getElem?_cons_succ] at ht
      exact hs m t' ht

/-! ### The default labeling -/

theorem bump_spec {P : Nat → Prop} {l : Nat} (hl : P l) : ∀ (counts : List (Nat × Nat)), (∀ q ∈ counts, P q.1 ∧ 0 < q.2) →
    bump l counts ≠ [] ∧ ∀ q ∈ bump l counts, P q.1 ∧ 0 < q.2
  | [], _ => ⟨by simp [bump], by simp [bump, hl]⟩
  | (k, c) :: rest, h => by
    have h0 := h (k, c) (by simp)
    have ih := bump_spec hl rest (fun q hq => h q (by simp [hq]))
    simp only [bump]
    split
    · refine ⟨by simp, ?_⟩
      intro q hq
      rcases List.mem_cons.mp hq with rfl | hq
      · exact ⟨h0.1, by simp⟩
      · exact h q (by simp [hq])
    · split
      · refine ⟨by simp, ?_⟩
        intro q hq
        rcases List.mem_cons.mp hq with rfl | hq
        · exact ⟨hl, by simp⟩
        · exact h q hq
      · refine ⟨by simp, ?_⟩
        intro q hq
        rcases List.mem_cons.mp hq with rfl | hq
        · exact h0
        · exact ih.2 q hq

theorem mostFrequent_spec {P : Nat → Prop} : ∀ (counts : List (Nat × Nat)) (c best : Nat), (∀ q ∈ counts, P q.1 ∧ 0 < q.2) →
    (P best ∨ (c = 0 ∧ counts ≠ [])) → P (mostFrequent counts c best)
  | [], _, _, _, h => by
    rcases h with h | ⟨_, h⟩
    · exact h
    · exact absurd rfl h
  | (k, n) :: rest, c, best, h, hb => by
    have h0 := h (k, n) (by simp)
    simp only [mostFrequent]
    split
    · exact mostFrequent_spec rest n k (fun q hq => h q (by simp [hq])) (.inl h0.1)
    · refine mostFrequent_spec rest c best (fun q hq => h q (by simp [hq])) (.inl ?_)
      rcases hb with hb | ⟨rfl, _⟩
      · exact hb
      · have := h0.2
        simp only at this
        omega

theorem labelCounts_spec {states : List (List Nat)} {P : Nat → Prop} : ∀ (copies : List SubVariable) (counts : List (Nat × Nat)),
    (∀ s ∈ copies, ∃ l, entry states s.model s.id = some l ∧ P l) → (∀ q ∈ counts, P q.1 ∧ 0 < q.2) →
    ∃ counts', labelCounts states copies counts = some counts' ∧ (∀ q ∈ counts', P q.1 ∧ 0 < q.2) ∧ (copies ≠ [] ∨ counts ≠ [] → counts' ≠ []) ∧
      (copies = [] → counts' = counts)
  | [], counts, _, hc => ⟨counts, rfl, hc, by simp, fun _ => rfl⟩
  | s :: rest, counts, h, hc => by
    obtain ⟨l, e, hl⟩ := h s (by simp)
    obtain ⟨b1, b2⟩ := bump_spec hl counts hc
    obtain ⟨counts', e', h1, h2, _⟩ := labelCounts_spec rest (bump l counts) (fun s' hs' => h s' (by simp [hs'])) b2
    refine ⟨counts', by simp only [labelCounts, e, e'], h1, fun _ => h2 (.inr b1), by simp⟩

/-- Each label of the default labeling is the label of a copy, or 0 if there are no copies. -/
theorem defaultLabel_spec {states : List (List Nat)} : ∀ (lists : List (List SubVariable)), (∀ copies ∈ lists, ∀ s ∈ copies, ∃ l, entry states s.model s.id = some l) →
    ∃ xs, defaultLabel states lists = some xs ∧
      List.Forall₂ (fun copies x => (copies = [] ∧ x = 0) ∨ ∃ s ∈ copies, entry states s.model s.id = some x) lists xs
  | [], _ => ⟨[], rfl, .nil⟩
  | copies :: rest, h => by
    obtain ⟨xs, e, hF⟩ := defaultLabel_spec rest (fun c hc => h c (by simp [hc]))
    obtain ⟨counts, e1, h1, h2, h3⟩ := labelCounts_spec (P := fun x => ∃ s ∈ copies, entry states s.model s.id = some x) copies [] (by
      intro s hs
      obtain ⟨l, hl⟩ := h copies (by simp) s hs
      exact ⟨l, hl, s, hs, hl⟩) (by simp)
    refine ⟨mostFrequent counts 0 0 :: xs, by simp only [defaultLabel, e1, e], .cons ?_ hF⟩
    by_cases hc : copies = []
    · left
      refine ⟨hc, ?_⟩
      rw [h3 hc]
      rfl
    · right
      exact mostFrequent_spec (P := fun x => ∃ s ∈ copies, entry states s.model s.id = some x) counts 0 0 h1 (.inr ⟨rfl, h2 (.inl hc)⟩)

theorem overwrite_spec : ∀ (ls vs label : List Nat), ls.length = vs.length → (∀ v ∈ vs, v < label.length) →
    ∃ label', overwrite ls vs label = some label' ∧ label'.length = label.length ∧
      ∀ v l : Nat, label'[v]? = some l → label[v]? = some l ∨ ∃ k : Nat, vs[k]? = some v ∧ ls[k]? = some l
  | [], vs, label, _, _ => ⟨label, rfl, rfl, fun v l h => .inl h⟩
  | _ :: _, [], _, h, _ => by simp at h
  | l :: ls, v :: vs, label, h, hv => by
    have hv0 := hv v (by simp)
    obtain ⟨label', e, hl, hs⟩ := overwrite_spec ls vs (label.set v l) (by simpa using h) (by
      intro w hw
      rw [List.length_set]
      exact hv w (by simp [hw]))
    refine ⟨label', by simp only [overwrite, setAt_of_lt _ hv0, e], by rw [hl, List.length_set], ?_⟩
    intro w l' hw
    rcases hs w l' hw with h1 | ⟨k, h1, h2⟩
    · by_cases hwv : v = w
      · subst hwv
        rw [List.getElem?_set_self hv0] at h1
        exact .inr ⟨0, rfl, by simpa using h1⟩
      · rw [List.getElem?_set_ne hwv] at h1
        exact .inl h1
    · exact .inr ⟨k + 1, by simpa using h1, by simpa using h2⟩

/-! ### The invariant -/

/-- What `modelWithSameVariables_` says is true: submodels marked true have the variables of the model. -/
def SameOk (ns : List (List Nat)) (p : Problem V) (same : List (Option Bool)) : Prop :=
  ∀ (m : Nat) (t : Option Bool), same[m]? = some t → t ≠ none ∧ (t = some true → ns[m]? = some p.numLabels)

/-- The part of the sum of the values of the factors that has copies in submodels. -/
def coveredSum (p : Problem V) (d : Decomposition) (x : List Nat) : V :=
  ((p.terms.map Term.vars).zipIdx.map (fun q => if d.facLists[q.2]? = some [] then 0 else termVal (sumOp V) p x q.2)).sum

structure Inv (p : Problem V) (ns : List (List Nat)) (calls : List (Call V)) (dd : DD V) : Prop where
  ctx : Ctx dd.gm p dd.decomposition 1 ns
  subs : SubsOk ns (fun m => (calls.filter (fun c => c.model = m)).map Call.term) dd.subs
  good : ∀ c ∈ calls, Good ns dd.blocks c
  sum : ∀ (mem : Mem V) (x : List Nat) (Y : List (List Nat)), MemOk dd.blocks mem → ZeroSum mem → p.Labeling x → Agrees dd.decomposition.varLists x Y →
    (calls.map (fun c => (callVal mem Y c).getD 0)).sum = coveredSum p dd.decomposition x
  blocks : ∀ b ∈ dd.blocks, BlockOk p dd.decomposition b
  mem : MemOk dd.blocks dd.mem
  zero : ZeroSum dd.mem
  sameLen : dd.same.length = dd.decomposition.numModels
  same : (∀ t ∈ dd.same, t = none) ∨ SameOk ns p dd.same
  upper : ∀ v x, dd.upper = some (v, x) → p.Labeling x ∧ v = p.energy (sumOp V) x

theorem coveredSum_eq {p : Problem V} {d : Decomposition} (h : ∀ f, f < p.terms.length → d.facLists[f]? ≠ some []) (x : List Nat) :
    coveredSum p d x = p.energy (sumOp V) x := by
  rw [energy_eq_total, show total (sumOp V) = fun l => l.sum from funext (fun l => by
    have key : ∀ (l : List V) (a : V), l.foldl (sumOp V).op a = a + l.sum := by
      intro l
      induction l with
      | nil => simp
      | cons b l ih => intro a; rw [List.foldl_cons, ih, List.sum_cons]; simp [sumOp, add_assoc]
    unfold total
    rw [key]
    simp [sumOp])]
  unfold coveredSum
  simp only
  congr 1
  apply List.ext_getElem
  · simp
  · intro i hi _
    have hi' : i < p.terms.length := by simpa using hi
    simp only [List.getElem_map, List.getElem_zipIdx, List.getElem_range, Nat.zero_add, if_neg (h i hi')]

theorem setup_spec [CharZero V] {gm : GM V} {p : Problem V} {d : Decomposition} (acc : Acc) (fill : Bool) {ns : List (List Nat)} (hns : numStates gm d = some ns)
    (h : Ctx gm p d 1 ns) :
    ∃ dd calls, setup gm acc fill 1 d = .ok dd () ∧ Inv p ns calls dd ∧ dd.gm = gm ∧ dd.acc = acc ∧ dd.fill = fill ∧ dd.decomposition = d ∧ dd.upper = none ∧
      dd.negLower = none ∧ ∀ t ∈ dd.same, t = none := by
  have hsc := scopesOf_eq h.rep
  have hz : ∀ q ∈ (p.terms.map Term.vars).zipIdx, (p.terms.map Term.vars)[q.2]? = some q.1 := by
    intro q hq
    rwa [List.mem_zipIdx_iff_getElem?] at hq
  obtain ⟨bs, e1, h1⟩ := factorBlocks_spec h (p.terms.map Term.vars).zipIdx hz
  obtain ⟨es, e2, h2⟩ := emptyBlocks_spec h d.empty (fun _ hq => hq)
  obtain ⟨calls, e3, h3, h4⟩ := factorCalls_spec h (bs ++ es) es e2 (p.terms.map Term.vars).zipIdx 0 bs hz e1 rfl
  obtain ⟨subs, e4, h5⟩ := runCalls_spec calls (fun _ => []) (ns.map (GM.ofSpace 1)) (SubsOk.start ns) (fun c hc => (h3 c hc).ok)
  simp only [setup, hns, hsc, e1, e2, e3, e4]
  refine ⟨_, calls, rfl, ?_, rfl, rfl, rfl, rfl, rfl, rfl, ?_⟩
  · refine ⟨h, by simpa using h5, h3, h4, ?_, ?_, ?_, by simp, .inl ?_, by simp⟩
    · intro b hb
      rcases List.mem_append.mp hb with hb | hb
      · exact h1 b hb
      · exact h2 b hb
    · unfold MemOk
      rw [List.map_map]
      exact List.map_congr_left (fun b _ => by simp)
    · intro B hB c
      obtain ⟨b, _, rfl⟩ := List.mem_map.mp hB
      simp
    · intro t ht
      exact List.eq_of_mem_replicate ht
  · intro t ht
    exact List.eq_of_mem_replicate ht

section
variable {p : Problem V} {ns : List (List Nat)} {calls : List (Call V)} {dd : DD V}

theorem Inv.modelLt (h : Inv p ns calls dd) : ∀ c ∈ calls, c.model < ns.length := by
  intro c hc
  obtain ⟨row, hr, _⟩ := (h.good c hc).ok.row
  exact (List.getElem?_eq_some_iff.mp hr).1

theorem row_of_forall₂ {Y : List (List Nat)} (hY : List.Forall₂ RowLabeling ns Y) {m : Nat} {y : List Nat} (hy : Y[m]? = some y) :
    ∃ row, ns[m]? = some row ∧ RowLabeling row y := by
  obtain ⟨hm, rfl⟩ := List.getElem?_eq_some_iff.mp hy
  have hm' : m < ns.length := by rw [hY.length_eq]; exact hm
  refine ⟨_, List.getElem?_eq_getElem hm', ?_⟩
  have := (List.forall₂_iff_get.mp hY).2 m hm' hm
  simpa only [List.get_eq_getElem] using this

theorem label_of_row {Y : List (List Nat)} (hY : List.Forall₂ RowLabeling ns Y) {m : Nat} {row : List Nat} (hr : ns[m]? = some row) :
    ∃ y, Y[m]? = some y ∧ RowLabeling row y := by
  obtain ⟨hm, rfl⟩ := List.getElem?_eq_some_iff.mp hr
  have hm' : m < Y.length := by rw [← hY.length_eq]; exact hm
  refine ⟨_, List.getElem?_eq_getElem hm', ?_⟩
  have := (List.forall₂_iff_get.mp hY).2 m hm hm'
  simpa only [List.get_eq_getElem] using this

theorem Inv.callDefined (h : Inv p ns calls dd) {mem : Mem V} (hM : MemOk dd.blocks mem) {Y : List (List Nat)} (hY : List.Forall₂ RowLabeling ns Y) {c : Call V}
    (hc : c ∈ calls) : callVal mem Y c = some ((callVal mem Y c).getD 0) := by
  have hg := h.good c hc
  obtain ⟨row, hr, hlt, hsh⟩ := hg.ok.row
  obtain ⟨y, hy, hR⟩ := label_of_row hY hr
  have : InShape c.fn.shape (restrict (Y.getD c.model []) c.ids) := by
    rw [hsh, List.getD_eq_getElem?_getD, hy]
    exact InShape_restrict _ _ _ hR.1 hR.2 hlt
  obtain ⟨w, hw⟩ := hg.total mem hM _ this
  unfold callVal
  rw [hw]
  rfl

theorem Inv.lowerValue (h : Inv p ns calls dd) {mem : Mem V} (hM : MemOk dd.blocks mem) {Y : List (List Nat)} (hY : List.Forall₂ RowLabeling ns Y) :
    lowerBound mem dd.subs Y = some (calls.map (fun c => (callVal mem Y c).getD 0)).sum :=
  lowerBound_spec h.subs h.modelLt hY mem (fun c => (callVal mem Y c).getD 0) (fun _ hc => h.callDefined hM hY hc)

theorem entry_label (h : Ctx dd.gm p dd.decomposition 1 ns) {Y : List (List Nat)} (hY : List.Forall₂ RowLabeling ns Y) {m k v : Nat}
    (hc : CopyOf dd.decomposition.varLists m k v) : ∃ (l n : Nat), entry Y m k = some l ∧ p.numLabels[v]? = some n ∧ l < n := by
  have hv := copyOf_lt hc
  rw [h.wf.varsLen, h.vars] at hv
  have e := h.states m k v hc
  rw [List.getElem?_eq_getElem hv, entry_eq] at e
  obtain ⟨row, e1, e2⟩ := e
  obtain ⟨y, hy, hR⟩ := label_of_row hY e1
  have hk : k < y.length := by rw [hR.1]; exact (List.getElem?_eq_some_iff.mp e2).1
  refine ⟨y[k], p.numLabels[v], ?_, List.getElem?_eq_getElem hv, ?_⟩
  · exact entry_eq.mpr ⟨y, hy, List.getElem?_eq_getElem hk⟩
  · exact hR.2 k _ _ (List.getElem?_eq_getElem hk) e2

theorem mem_visits {d : Decomposition} {q : SubVariable × Nat} (h : q ∈ d.visits) : CopyOf d.varLists q.1.model q.1.id q.2 := by
  unfold Decomposition.visits at h
  obtain ⟨⟨l, v⟩, h1, h2⟩ := List.mem_flatMap.mp h
  obtain ⟨s, hs, rfl⟩ := List.mem_map.mp h2
  rw [List.mem_zipIdx_iff_getElem?] at h1
  exact ⟨l, h1, hs⟩

theorem visits_of_copy {d : Decomposition} {m k v : Nat} (h : CopyOf d.varLists m k v) : ((⟨m, k⟩ : SubVariable), v) ∈ d.visits := by
  obtain ⟨l, h1, h2⟩ := h
  unfold Decomposition.visits
  refine List.mem_flatMap.mpr ⟨(l, v), ?_, List.mem_map.mpr ⟨⟨m, k⟩, h2, rfl⟩⟩
  rw [List.mem_zipIdx_iff_getElem?]
  exact h1

theorem copy_model_lt (h : Ctx dd.gm p dd.decomposition 1 ns) {m k v : Nat} (hc : CopyOf dd.decomposition.varLists m k v) : m < dd.decomposition.numModels := by
  obtain ⟨n, hn, _⟩ := (h.wf.numbered.range m k).mp ⟨v, hc⟩
  rw [← h.wf.subVarsLen]
  exact (List.getElem?_eq_some_iff.mp hn).1

theorem updateSame_spec (h : Inv p ns calls dd) (hpos : 0 < dd.decomposition.numModels) :
    ∃ same, updateSame dd = some same ∧ same.length = dd.decomposition.numModels ∧ SameOk ns p same := by
  have hl := h.sameLen
  have h0 : 0 < dd.same.length := by omega
  unfold updateSame
  rcases h.same with hn | hs
  · rw [List.getElem?_eq_getElem h0, hn _ (List.getElem_mem h0)]
    simp only
    obtain ⟨s1, e1, l1, p1⟩ := markDifferent_spec dd.decomposition.visits dd.same (fun q hq => by rw [hl]; exact copy_model_lt h.ctx (mem_visits hq))
    obtain ⟨s2, e2, l2, p2⟩ := markSame_spec dd.gm.numberOfVariables dd.subs s1 (by rw [l1, hl, h.subs.len, h.ctx.nsLen])
    rw [e1]
    simp only [e2]
    refine ⟨s2, rfl, by rw [l2, l1, hl], ?_⟩
    intro m t ht
    obtain ⟨a, b⟩ := p2 m t ht
    refine ⟨a, ?_⟩
    intro htt
    obtain ⟨g, t1, hg, ht1, hn1, ht2⟩ := b htt
    rcases p1 m t1 ht1 with h3 | ⟨_, h3⟩
    · exact absurd h3 ht2
    · have hm : m < ns.length := by rw [← h.subs.len]; exact (List.getElem?_eq_some_iff.mp hg).1
      have hrow := List.getElem?_eq_getElem hm
      have hrep := (h.subs.rep m g _ hg hrow).1
      have hcount : dd.decomposition.numSubVars[m]? = some ns[m].length := by
        rw [← h.ctx.shape, List.getElem?_map, hrow]
        rfl
      have hlen : ns[m].length = p.numLabels.length := by
        have h4 : dd.gm.numberOfVariables = p.numLabels.length := by rw [← h.ctx.rep.labels]; rfl
        have h5 : g.numberOfVariables = ns[m].length := by
          have := hrep.labels
          simp only at this
          rw [← this]
          rfl
        omega
      rw [hrow]
      congr 1
      apply List.ext_getElem hlen
      intro k hk1 hk2
      obtain ⟨v, hv⟩ := (h.ctx.wf.numbered.range m k).mpr ⟨_, hcount, hk1⟩
      have hkv : k = v := h3 _ (visits_of_copy hv) rfl
      subst hkv
      have e := h.ctx.states m k k hv
      rw [List.getElem?_eq_getElem hk2, entry_eq] at e
      obtain ⟨row, e1, e2⟩ := e
      rw [hrow] at e1
      injection e1 with e1
      subst e1
      rw [List.getElem?_eq_getElem hk1] at e2
      exact Option.some.inj e2
  · rw [List.getElem?_eq_getElem h0]
    obtain ⟨ha, hb⟩ := hs 0 _ (List.getElem?_eq_getElem h0)
    cases ht : dd.same[0] with
    | none => exact absurd ht ha
    | some b => exact ⟨dd.same, rfl, hl, hs⟩

theorem Inv.default (h : Inv p ns calls dd) (hp : ∀ n ∈ p.numLabels, 0 < n) {Y : List (List Nat)} (hY : List.Forall₂ RowLabeling ns Y) :
    ∃ x, defaultLabel Y dd.decomposition.varLists = some x ∧ p.Labeling x ∧
      ∀ (v : Nat) (copies : List SubVariable), dd.decomposition.varLists[v]? = some copies → copies ≠ [] → ∃ s ∈ copies, entry Y s.model s.id = x[v]? := by
  obtain ⟨x, e, hF⟩ := defaultLabel_spec (states := Y) dd.decomposition.varLists (by
    intro copies hc s hs
    obtain ⟨v, hv⟩ := List.getElem?_of_mem hc
    obtain ⟨l, _, hl, _⟩ := entry_label h.ctx hY (m := s.model) (k := s.id) (v := v) ⟨copies, hv, hs⟩
    exact ⟨l, hl⟩)
  have hlen : x.length = p.numLabels.length := by rw [← hF.length_eq, h.ctx.wf.varsLen, h.ctx.vars]
  have hget := (List.forall₂_iff_get.mp hF).2
  refine ⟨x, e, ⟨hlen, ?_⟩, ?_⟩
  · intro v l n hl hn
    obtain ⟨hv, rfl⟩ := List.getElem?_eq_some_iff.mp hl
    have hv' : v < dd.decomposition.varLists.length := by rw [hF.length_eq]; exact hv
    have := hget v hv' hv
    simp only [List.get_eq_getElem] at this
    rcases this with ⟨_, h0⟩ | ⟨s, hs, h1⟩
    · rw [h0]
      exact hp n (List.mem_of_getElem? hn)
    · obtain ⟨l', n', h2, h3, h4⟩ := entry_label h.ctx hY (m := s.model) (k := s.id) (v := v) ⟨_, List.getElem?_eq_getElem hv', hs⟩
      rw [h1] at h2
      injection h2 with h2
      rw [hn] at h3
      injection h3 with h3
      omega
  · intro v copies hc hne
    obtain ⟨hv', rfl⟩ := List.getElem?_eq_some_iff.mp hc
    have hv : v < x.length := by rw [← hF.length_eq]; exact hv'
    have := hget v hv' hv
    simp only [List.get_eq_getElem] at this
    rcases this with ⟨h0, _⟩ | ⟨s, hs, h1⟩
    · exact absurd h0 hne
    · exact ⟨s, hs, by rw [h1, List.getElem?_eq_getElem hv]⟩

/-- The labeling and its value. -/
def Cand (p : Problem V) (q : V × List Nat) : Prop := p.Labeling q.2 ∧ q.1 = p.energy (sumOp V) q.2

theorem candidates_spec (h : Inv p ns calls dd) {dflt : List Nat} (hd : p.Labeling dflt) {real : List (List Nat)} (hreal : dd.decomposition.realTable = some real)
    {same : List (Option Bool)} (hs : SameOk ns p same) : ∀ (states : List (List Nat)) (ts : List (Option Bool)) (m : Nat) (best : V × List Nat),
    List.Forall₂ RowLabeling (ns.drop m) states → ts = same.drop m → ts.length = states.length → Cand p best →
    ∃ best', candidates dd dflt real states ts m (some best) = some (some best') ∧ Cand p best' ∧ dd.acc.le best'.1 best.1 ∧
      ∀ (k : Nat) (y : List Nat), states[k]? = some y → ts[k]? = some (some true) → dd.acc.le best'.1 (p.energy (sumOp V) y)
  | [], ts, m, best, _, _, _, hb => ⟨best, rfl, hb, dd.acc.le_refl _, by simp⟩
  | x :: xs, [], m, best, _, _, hl, _ => by simp at hl
  | x :: xs, t :: ts, m, best, hF, hts, hl, hb => by
    have hm : m < ns.length := by
      by_contra hc
      rw [List.drop_eq_nil_of_le (by omega)] at hF
      cases hF
    have hms : m < same.length := by
      by_contra hc
      rw [List.drop_eq_nil_of_le (by omega)] at hts
      simp at hts
    rw [List.drop_eq_getElem_cons hm] at hF
    rw [List.drop_eq_getElem_cons hms] at hts
    obtain ⟨ht, hts⟩ := List.cons.inj hts
    cases hF with
    | cons hR hF =>
      have hl' : ts.length = xs.length := by simpa using hl
      have step : ∀ (v : V) (y : List Nat), Cand p (v, y) → ∃ best', candidates dd dflt real xs ts (m + 1) (accumulate dd.acc (some best) v y) = some (some best') ∧
          Cand p best' ∧ dd.acc.le best'.1 best.1 ∧ dd.acc.le best'.1 v ∧
          ∀ (k : Nat) (y : List Nat), xs[k]? = some y → ts[k]? = some (some true) → dd.acc.le best'.1 (p.energy (sumOp V) y) := by
        intro v y hc
        obtain ⟨r, e1, h1, h2, h3⟩ := accumulate_spec dd.acc (some best) v y
        have hr : Cand p r := by
          rcases h1 with rfl | h1
          · exact hc
          · injection h1 with h1
            subst h1
            exact hb
        obtain ⟨b', e2, g1, g2, g3⟩ := candidates_spec h hd hreal hs xs ts (m + 1) r hF hts hl' hr
        rw [e1]
        exact ⟨b', e2, g1, Acc.le_trans g2 (h3 best rfl), Acc.le_trans g2 h2, g3⟩
      have hsm := hs m t (by rw [List.getElem?_eq_getElem hms, ht])
      simp only [candidates]
      by_cases htf : t = some false
      · rw [if_pos htf]
        by_cases hfill : dd.fill = true
        · rw [if_pos hfill]
          obtain ⟨T, e, hT, hTe⟩ := realTable_spec' h.ctx.wf
          rw [hreal] at e
          injection e with e
          subst e
          have hcount : dd.decomposition.numSubVars[m]? = some ns[m].length := by
            rw [← h.ctx.shape, List.getElem?_map, List.getElem?_eq_getElem hm]
            rfl
          have hmr : m < real.length := by
            have := congrArg List.length hT
            rw [List.length_map, h.ctx.wf.subVarsLen, ← h.ctx.nsLen] at this
            omega
          have hrl : real[m].length = ns[m].length := by
            rw [← hT, List.getElem?_map, List.getElem?_eq_getElem hmr] at hcount
            simpa using hcount
          have hcopy : ∀ (k v : Nat), real[m][k]? = some v → CopyOf dd.decomposition.varLists m k v := by
            intro k v hk
            have hk' : k < ns[m].length := by rw [← hrl]; exact (List.getElem?_eq_some_iff.mp hk).1
            obtain ⟨v', hv'⟩ := (h.ctx.wf.numbered.range m k).mpr ⟨_, hcount, hk'⟩
            have := hTe m k v' hv'
            rw [entry_eq] at this
            obtain ⟨row, e1, e2⟩ := this
            rw [List.getElem?_eq_getElem hmr] at e1
            injection e1 with e1
            subst e1
            rw [hk] at e2
            injection e2 with e2
            subst e2
            exact hv'
          have hrange : ∀ v ∈ real[m], v < dflt.length := by
            intro v hv
            obtain ⟨k, hk⟩ := List.getElem?_of_mem hv
            have := copyOf_lt (hcopy k v hk)
            rw [h.ctx.wf.varsLen, h.ctx.vars] at this
            rw [hd.1]
            exact this
          obtain ⟨label, e1, hlab, hent⟩ := overwrite_spec x real[m] dflt (by rw [hrl]; exact hR.1) hrange
          have hL : p.Labeling label := by
            refine ⟨by rw [hlab]; exact hd.1, ?_⟩
            intro v l n hl hn
            rcases hent v l hl with h1 | ⟨k, h1, h2⟩
            · exact hd.2 v l n h1 hn
            · have hc := hcopy k v h1
              have e := h.ctx.states m k v hc
              rw [hn, entry_eq] at e
              obtain ⟨row, e2, e3⟩ := e
              rw [List.getElem?_eq_getElem hm] at e2
              injection e2 with e2
              subst e2
              exact hR.2 k l n h2 e3
          rw [List.getElem?_eq_getElem hmr]
          simp only [e1]
          rw [evaluate_spec (sumOp V) h.ctx.rep.toStores label hL]
          simp only
          obtain ⟨b', g0, g1, g2, _, g3⟩ := step (p.energy (sumOp V) label) label ⟨hL, rfl⟩
          refine ⟨b', g0, g1, g2, ?_⟩
          intro k y hk hkt
          cases k with
          | zero =>
            simp only [List.getElem?_cons_zero, Option.some.injEq] at hkt
            rw [htf] at hkt
            simp at hkt
          | succ k => exact g3 k y (by simpa using hk) (by simpa using hkt)
        · rw [if_neg hfill]
          obtain ⟨b', e2, g1, g2, g3⟩ := candidates_spec h hd hreal hs xs ts (m + 1) best hF hts hl' hb
          refine ⟨b', e2, g1, g2, ?_⟩
          intro k y hk hkt
          cases k with
          | zero =>
            simp only [List.getElem?_cons_zero, Option.some.injEq] at hkt
            rw [htf] at hkt
            simp at hkt
          | succ k => exact g3 k y (by simpa using hk) (by simpa using hkt)
      · rw [if_neg htf]
        have htt : t = some true := by
          rcases t with _ | b
          · exact absurd rfl hsm.1
          · cases b
            · exact absurd rfl htf
            · rfl
        have hrow := hsm.2 htt
        rw [List.getElem?_eq_getElem hm] at hrow
        injection hrow with hrow
        rw [hrow] at hR
        have hL : p.Labeling x := hR
        rw [evaluate_spec (sumOp V) h.ctx.rep.toStores x hL]
        simp only
        obtain ⟨b', g0, g1, g2, g4, g3⟩ := step (p.energy (sumOp V) x) x ⟨hL, rfl⟩
        refine ⟨b', g0, g1, g2, ?_⟩
        intro k y hk hkt
        cases k with
        | zero =>
          simp only [List.getElem?_cons_zero, Option.some.injEq] at hk
          subst hk
          exact g4
        | succ k => exact g3 k y (by simpa using hk) (by simpa using hkt)

theorem getBounds_spec (h : Inv p ns calls dd) (hpos : 0 < dd.decomposition.numModels) (hp : ∀ n ∈ p.numLabels, 0 < n) {Y : List (List Nat)}
    (hY : List.Forall₂ RowLabeling ns Y) :
    ∃ (lower : V) (best : V × List Nat) (same : List (Option Bool)) (dflt : List Nat), getBounds dd Y = some (lower, best, same) ∧
      DualDecomposition.lowerBound dd.mem dd.subs Y = some lower ∧
      Cand p best ∧ same.length = dd.decomposition.numModels ∧ SameOk ns p same ∧ defaultLabel Y dd.decomposition.varLists = some dflt ∧ p.Labeling dflt ∧
      dd.acc.le best.1 (p.energy (sumOp V) dflt) ∧
      (∀ (v : Nat) (copies : List SubVariable), dd.decomposition.varLists[v]? = some copies → copies ≠ [] → ∃ s ∈ copies, entry Y s.model s.id = dflt[v]?) ∧
      ∀ (m : Nat) (y : List Nat), Y[m]? = some y → same[m]? = some (some true) → dd.acc.le best.1 (p.energy (sumOp V) y) := by
  obtain ⟨same, e1, hl, hs⟩ := updateSame_spec h hpos
  obtain ⟨real, e2, _⟩ := realTable_spec' h.ctx.wf
  obtain ⟨dflt, e3, hd, hcop⟩ := h.default hp hY
  have e4 := h.lowerValue h.mem hY
  obtain ⟨best, e5, g1, g2, g3⟩ := candidates_spec h hd e2 hs Y same 0 (p.energy (sumOp V) dflt, dflt) (by simpa using hY) (by simp) (by
    rw [hl, ← h.ctx.nsLen, hY.length_eq]) ⟨hd, rfl⟩
  refine ⟨_, best, same, dflt, ?_, e4, g1, hl, hs, e3, hd, g2, hcop, g3⟩
  simp only [getBounds, e4, e1, e2, e3]
  rw [evaluate_spec (sumOp V) h.ctx.rep.toStores dflt hd]
  simp only [accumulate]
  rw [e5]

end
end DualDecomposition
end OpenGM
