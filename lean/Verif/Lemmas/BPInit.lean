import Verif.Lemmas.BPState
import Verif.Spec.Trees
/-
Construction, reset, and inferAcyclic as a whole.
-/
namespace OpenGM.MessagePassing
open Spec BP
variable {V : Type} {r : Rules V} {gm : GM V} {NV NF : Nat → List Nat} {GV GF : Nat → Nat → List V → Prop} {norm : Bool}

/-- The factors of a variable. -/
def adjOf (gm : GM V) (v : Nat) : List Nat := gm.adj.getD v []

theorem scopeOf_term {p : Problem V} {f : Nat} {t : Term V} (h : p.terms[f]? = some t) : scopeOf p.scopes f = t.vars := by
  simp [scopeOf, Problem.scopes, h]

theorem factor_matches {p : Problem V} (h : Represents gm p) {f : Nat} {rec : FactorRec} (hf : gm.factors[f]? = some rec) :
    ∃ t, p.terms[f]? = some t ∧ FactorMatches gm rec t := by
  obtain ⟨hlt, e⟩ := List.getElem?_eq_some_iff.mp hf
  have hl := h.factors.length_eq
  have := h.factors.get (i := f) hlt (by omega)
  simp only [List.get_eq_getElem] at this
  rw [e] at this
  exact ⟨_, List.getElem?_eq_getElem (by omega), this⟩

theorem net_of_represents {p : Problem V} (h : Represents gm p) : Net gm (adjOf gm) (scopeOf p.scopes) := by
  have hl := h.factors.length_eq
  have hmt : ∀ (f : Nat) t, p.terms[f]? = some t → ∃ rec, gm.factors[f]? = some rec ∧ FactorMatches gm rec t := by
    intro f t ht
    have hlt := (List.getElem?_eq_some_iff.mp ht).1
    obtain ⟨t', h1, h2⟩ := factor_matches h (List.getElem?_eq_getElem (by omega : f < gm.factors.length))
    rw [ht] at h1
    cases h1
    exact ⟨_, List.getElem?_eq_getElem (by omega), h2⟩
  have hmem : ∀ v f : Nat, v ∈ scopeOf p.scopes f → ∃ t, p.terms[f]? = some t ∧ v ∈ t.vars := by
    intro v f hv
    obtain ⟨s, h1, h2⟩ := mem_scopeOf.mp hv
    rw [Problem.scopes, List.getElem?_map] at h1
    cases ht : p.terms[f]? with
    | none => rw [ht] at h1; simp at h1
    | some t => rw [ht] at h1; simp at h1; subst h1; exact ⟨t, rfl, h2⟩
  have hadj : ∀ v, v < gm.numLabels.length → adjOf gm v = (List.range p.terms.length).filter (mentions p.terms v) := by
    intro v hv
    simp [adjOf, h.adj v hv]
  have hrangeV : ∀ v f, v ∈ scopeOf p.scopes f → v < gm.numLabels.length := by
    intro v f hv
    obtain ⟨t, ht, hvt⟩ := hmem v f hv
    obtain ⟨rec, _, hm⟩ := hmt f t ht
    exact hm.range v hvt
  have hout : ∀ v, ¬ v < gm.numLabels.length → adjOf gm v = [] := by
    intro v hv
    rw [adjOf, List.getD, List.getElem?_eq_none (by rw [h.adjLen]; omega)]; rfl
  refine ⟨?_, h.adjLen, ?_, ?_, ?_, ?_, hrangeV, ?_⟩
  · intro v hv
    rw [hadj v hv]
    exact h.adj v hv
  · intro f rec hf
    obtain ⟨t, ht, hm⟩ := factor_matches h hf
    rw [scopeOf_term ht]
    refine ⟨hm.scope, hm.visSize, fun i v hi => ?_⟩
    rw [hm.visAt i (by rw [hm.visSize]; exact (List.getElem?_eq_some_iff.mp hi).1)]
    exact hi
  · intro v f
    constructor
    · intro hf
      by_cases hv : v < gm.numLabels.length
      · rw [hadj v hv, List.mem_filter] at hf
        obtain ⟨_, h2⟩ := hf
        unfold mentions at h2
        cases ht : p.terms[f]? with
        | none => rw [ht] at h2; simp at h2
        | some t =>
          rw [ht] at h2
          rw [scopeOf_term ht]
          simpa using h2
      · rw [hout v hv] at hf; simp at hf
    · intro hv
      obtain ⟨t, ht, hvt⟩ := hmem v f hv
      rw [hadj v (hrangeV v f hv), List.mem_filter, List.mem_range]
      refine ⟨(List.getElem?_eq_some_iff.mp ht).1, ?_⟩
      simp [mentions, ht, hvt]
  · intro v
    by_cases hv : v < gm.numLabels.length
    · rw [hadj v hv]
      exact List.nodup_range.filter _
    · rw [hout v hv]; exact List.nodup_nil
  · intro f
    cases ht : p.terms[f]? with
    | none =>
      have : scopeOf p.scopes f = [] := by simp [scopeOf, Problem.scopes, ht]
      rw [this]; exact List.nodup_nil
    | some t =>
      rw [scopeOf_term ht]
      obtain ⟨rec, _, hm⟩ := hmt f t ht
      exact hm.sorted.imp (fun h => Nat.ne_of_lt h)
  · intro v f hv
    obtain ⟨t, ht, _⟩ := hmem v f hv
    have := (List.getElem?_eq_some_iff.mp ht).1
    omega

/-! ### setHulls -/

theorem bufferNumber_eq {f : Nat} : ∀ {L : List Nat} {k : Nat}, f ∈ L → bufferNumber f L k = k + L.idxOf f
  | [], _, h => by simp at h
  | g :: L, k, h => by
    rw [bufferNumber]
    by_cases hg : g = f
    · subst hg; simp
    · have : f ∈ L := by
        rcases List.mem_cons.mp h with h | h
        · exact absurd h.symm hg
        · exact h
      rw [if_neg hg, bufferNumber_eq this, List.idxOf_cons_ne _ hg]
      omega

/-- Rows of pointers with the right lengths. -/
def PtrShape (gm : GM V) (NV : Nat → List Nat) (ps : List (List (Option (Nat × Nat)))) : Prop :=
  ∀ v, v < gm.numLabels.length → ∃ row : List (Option (Nat × Nat)), ps[v]? = some row ∧ row.length = (NV v).length

theorem getPointer_set {ps : List (List (Option (Nat × Nat)))} {v j : Nat} {row : List (Option (Nat × Nat))} (hv : ps[v]? = some row) (hj : j < row.length) (q : Nat × Nat) (w k : Nat) :
    getPointer (ps.set v (row.set j (some q))) w k = if w = v ∧ k = j then some q else getPointer ps w k := by
  have hvl := (List.getElem?_eq_some_iff.mp hv).1
  unfold getPointer
  by_cases hwv : v = w
  · subst hwv
    rw [List.getElem?_set_self hvl, hv]
    simp only [Option.bind_some, true_and]
    by_cases hkj : j = k
    · subst hkj
      rw [List.getElem?_set_self hj]; simp
    · rw [List.getElem?_set_ne hkj, if_neg (Ne.symm hkj)]
  · rw [List.getElem?_set_ne hwv, if_neg (fun h => hwv h.1.symm)]

theorem connectLoop_eq (hN : Net gm NV NF) {f : Nat} : ∀ {vs : List Nat} {n : Nat} {ps : List (List (Option (Nat × Nat)))}, vs.Nodup → (∀ v ∈ vs, v ∈ NF f) → PtrShape gm NV ps →
    ∃ ps', connectLoop gm f vs n ps = some (ps', vs.map (fun v => (gm.numLabels.getD v 0, some (v, (NV v).idxOf f)))) ∧ PtrShape gm NV ps' ∧
      ∀ w k, getPointer ps' w k = if w ∈ vs ∧ k = (NV w).idxOf f then some (f, n + vs.idxOf w) else getPointer ps w k
  | [], n, ps, _, _, hs => ⟨ps, rfl, hs, by simp⟩
  | v :: vs, n, ps, hn, hv, hs => by
    obtain ⟨hnv, hn⟩ := List.nodup_cons.mp hn
    have hvf := hv v (by simp)
    have hvl := hN.rangeV v f hvf
    have hfv := (hN.mem v f).mpr hvf
    obtain ⟨row, h1, h2⟩ := hs v hvl
    have hj : (NV v).idxOf f < row.length := by rw [h2]; exact List.idxOf_lt_length_of_mem hfv
    have hpl := (List.getElem?_eq_some_iff.mp h1).1
    have hs' : PtrShape gm NV (ps.set v (row.set ((NV v).idxOf f) (some (f, n)))) := by
      intro w hw
      by_cases hwv : v = w
      · subst hwv
        exact ⟨_, List.getElem?_set_self hpl, by simpa using h2⟩
      · rw [List.getElem?_set_ne hwv]
        exact hs w hw
    obtain ⟨ps', e1, e2, e3⟩ := connectLoop_eq hN (f := f) (vs := vs) (n := n + 1) hn (fun w hw => hv w (List.mem_cons_of_mem _ hw)) hs'
    refine ⟨ps', ?_, e2, ?_⟩
    · rw [connectLoop, hN.adj v hvl, h1, List.getElem?_eq_getElem hvl]
      simp only
      rw [bufferNumber_eq hfv, Nat.zero_add, setAt_of_lt _ hj]
      simp only
      rw [e1]
      simp [List.getD, hvl]
    · intro w k
      rw [e3, getPointer_set h1 hj]
      by_cases hw : w ∈ vs
      · have hwv : w ≠ v := fun e => hnv (e ▸ hw)
        have hvw : v ≠ w := Ne.symm hwv
        have ei : (v :: vs).idxOf w = vs.idxOf w + 1 := List.idxOf_cons_ne _ hvw
        rw [ei]
        simp only [hw, hwv, List.mem_cons, or_true, true_and, false_and, if_false]
        rw [show n + 1 + vs.idxOf w = n + (vs.idxOf w + 1) by omega]
      · by_cases hwv : w = v
        · subst hwv
          simp [hw]
        · simp [hw, hwv]

theorem assignFactors_eq (hN : Net gm NV NF) {neutral : V} : ∀ {fs : List FactorRec} {k : Nat} {old : List (List (Buffer V))} {ps : List (List (Option (Nat × Nat)))},
    gm.factors.drop k = fs → PtrShape gm NV ps → ∃ ps' ins outs, assignFactors gm neutral fs k old ps = some (ps', ins, outs) ∧ PtrShape gm NV ps' ∧
      (∀ m, m < fs.length → ins[m]? = some (assignFactor neutral ((NF (k + m)).map (fun v => gm.numLabels.getD v 0)) (old.getD m []))) ∧
      (∀ m, m < fs.length → outs[m]? = some ((NF (k + m)).map (fun v => some (v, (NV v).idxOf (k + m))))) ∧
      ∀ w j g : Nat, (NV w)[j]? = some g → getPointer ps' w j = if k ≤ g then some (g, (NF g).idxOf w) else getPointer ps w j
  | [], k, old, ps, hd, hs => by
    refine ⟨ps, [], [], rfl, hs, by simp, by simp, ?_⟩
    intro w j g hg
    have h1 := hN.rangeF w g ((hN.mem w g).mp (List.mem_of_getElem? hg))
    rw [List.drop_eq_nil_iff] at hd
    rw [if_neg (by omega)]
  | rec :: fs, k, old, ps, hd, hs => by
    have hrec : gm.factors[k]? = some rec := by
      have := congrArg (fun l => l[0]?) hd
      simpa using this
    have hd' : gm.factors.drop (k + 1) = fs := by
      have := congrArg List.tail hd
      simpa using this
    obtain ⟨hsc, _, _⟩ := hN.scope k rec hrec
    obtain ⟨ps1, e1, e2, e3⟩ := connectLoop_eq hN (f := k) (vs := NF k) (n := 0) (hN.nodupF k) (fun v hv => hv) hs
    obtain ⟨ps', ins, outs, g1, g2, g3, g4, g5⟩ := assignFactors_eq hN (neutral := neutral) (fs := fs) (k := k + 1) (old := old.tail) hd' e2
    refine ⟨ps', assignFactor neutral (((NF k).map (fun v => (gm.numLabels.getD v 0, some (v, (NV v).idxOf k)))).map Prod.fst) (old.headD []) :: ins,
      ((NF k).map (fun v => (gm.numLabels.getD v 0, some (v, (NV v).idxOf k)))).map Prod.snd :: outs, ?_, g2, ?_, ?_, ?_⟩
    · rw [assignFactors, hsc, e1]
      simp only
      rw [g1]
    · intro m hm
      cases m with
      | zero =>
        simp only [List.getElem?_cons_zero, Nat.add_zero]
        rw [List.map_map]
        congr 2
        cases old <;> simp
      | succ m =>
        rw [List.getElem?_cons_succ, g3 m (by simpa using hm)]
        rw [show k + 1 + m = k + (m + 1) by omega]
        congr 2
        cases old <;> simp
    · intro m hm
      cases m with
      | zero =>
        simp only [List.getElem?_cons_zero, Nat.add_zero]
        rw [List.map_map]
        rfl
      | succ m =>
        rw [List.getElem?_cons_succ, g4 m (by simpa using hm)]
        rw [show k + 1 + m = k + (m + 1) by omega]
    · intro w j g hg
      rw [g5 w j g hg]
      by_cases hk : k + 1 ≤ g
      · rw [if_pos hk, if_pos (by omega)]
      · rw [if_neg hk, e3]
        by_cases hkg : k = g
        · subst hkg
          have hw : w ∈ NF k := (hN.mem w k).mp (List.mem_of_getElem? hg)
          have hj : j = (NV w).idxOf k := by
            obtain ⟨hjl, e⟩ := List.getElem?_eq_some_iff.mp hg
            rw [← e, (hN.nodupV w).idxOf_getElem j hjl]
          rw [if_pos ⟨hw, hj⟩, if_pos (Nat.le_refl _), Nat.zero_add]
        · rw [if_neg (by omega : ¬ k ≤ g), if_neg]
          rintro ⟨hw, hj⟩
          have hkw := (hN.mem w k).mpr hw
          have hlt := List.idxOf_lt_length_of_mem hkw
          have : (NV w)[j]? = some k := by
            rw [hj, List.getElem?_eq_getElem hlt, List.getElem_idxOf]
          rw [this] at hg
          cases hg
          exact hkg rfl

theorem resizeTo_length {α : Type} (l : List α) (n : Nat) (x : α) : (resizeTo l n x).length = n := by
  simp [resizeTo]; omega

theorem resizeTo_get {α : Type} (l : List α) {n i : Nat} (hi : i < n) (x : α) : ∃ y, (resizeTo l n x)[i]? = some y ∧ (y = x ∨ l[i]? = some y) := by
  unfold resizeTo
  by_cases hlt : i < l.length
  · refine ⟨l[i], ?_, Or.inr (List.getElem?_eq_getElem hlt)⟩
    rw [List.getElem?_append_left (by simp; omega), List.getElem?_take, if_pos hi, List.getElem?_eq_getElem hlt]
  · refine ⟨x, ?_, Or.inl rfl⟩
    rw [List.getElem?_append_right (by simp; omega), List.getElem?_replicate, if_pos]
    simp
    omega

theorem assign_length {b : Buffer V} {n : Nat} (hn : 0 < n) (a : V) : (b.assign n a).buffer1.length = n ∧ (b.assign n a).buffer2.length = n := by
  unfold Buffer.assign
  rw [if_neg (by omega)]
  simp [resizeRow]; omega

theorem assign_neutral {b : Buffer V} {n : Nat} (hn : 0 < n) {a : V} (h1 : ∀ x ∈ b.buffer1, x = a) (h2 : ∀ x ∈ b.buffer2, x = a) :
    (b.assign n a).buffer1 = List.replicate n a ∧ (b.assign n a).buffer2 = List.replicate n a := by
  obtain ⟨l1, l2⟩ := assign_length (b := b) hn a
  have hm : ∀ row : List V, (∀ x ∈ row, x = a) → ∀ x ∈ resizeRow row n a, x = a := by
    intro row h x hx
    unfold resizeRow at hx
    rcases List.mem_append.mp hx with hx | hx
    · exact h x (List.mem_of_mem_take hx)
    · exact List.eq_of_mem_replicate hx
  refine ⟨List.eq_replicate_iff.mpr ⟨l1, ?_⟩, List.eq_replicate_iff.mpr ⟨l2, ?_⟩⟩
  · have : (b.assign n a).buffer1 = resizeRow b.buffer1 n a := by unfold Buffer.assign; rw [if_neg (by omega)]
    rw [this]; exact hm _ h1
  · have : (b.assign n a).buffer2 = resizeRow b.buffer2 n a := by unfold Buffer.assign; rw [if_neg (by omega)]
    rw [this]; exact hm _ h2

/-- `setHulls` on an object with the messages of variables with one factor neutral. -/
theorem setHulls_ok (hN : Net gm NV NF) (hp : ∀ n ∈ gm.numLabels, 0 < n) {s : MP V} (hgm : s.gm = gm)
    (hpre : ∀ (f i v : Nat) b, (NF f)[i]? = some v → (NV v).length < 2 → getBuffer s.facIn f i = some b → (∀ x ∈ b.buffer1, x = r.o.neutral) ∧ (∀ x ∈ b.buffer2, x = r.o.neutral)) :
    ∃ s', setHulls r s = some s' ∧ Inv r gm NV NF s' ∧ s'.isAcyclic = s.isAcyclic ∧ s'.useNormalization = s.useNormalization := by
  have hpos : ∀ v, v < gm.numLabels.length → 0 < gm.numLabels.getD v 0 := by
    intro v hv
    have := hp _ (List.getElem_mem hv)
    simpa [List.getD, hv] using this
  have hadjl : ∀ v, v < gm.numLabels.length → (gm.adj.map List.length)[v]? = some (NV v).length := by
    intro v hv
    rw [List.getElem?_map, hN.adj v hv]; rfl
  have hshape : PtrShape gm NV ((resizeTo s.varOut gm.numberOfVariables []).zipWith (fun old d => resizeTo old d none) (gm.adj.map List.length)) := by
    intro v hv
    rw [List.getElem?_zipWith, hadjl v hv]
    have hl : v < (resizeTo s.varOut gm.numberOfVariables []).length := by rw [resizeTo_length]; exact hv
    rw [List.getElem?_eq_getElem hl]
    exact ⟨_, rfl, resizeTo_length _ _ _⟩
  obtain ⟨ps', ins, outs, g1, g2, g3, g4, g5⟩ := assignFactors_eq hN (neutral := r.o.neutral) (fs := gm.factors) (k := 0) (old := s.facIn) (by simp) hshape
  unfold setHulls
  simp only
  rw [hgm, g1]
  simp only
  refine ⟨_, rfl, ?_, rfl, rfl⟩
  have hvar : ∀ v, v < gm.numLabels.length → ∃ old : List (Buffer V), ((resizeTo s.varIn gm.numberOfVariables []).zipWith (fun old x => assignVariable r.o.neutral x.1 x.2 old) (gm.numLabels.zip (gm.adj.map List.length)))[v]? =
      some (assignVariable r.o.neutral (gm.numLabels.getD v 0) (NV v).length old) := by
    intro v hv
    have hl : v < (resizeTo s.varIn gm.numberOfVariables []).length := by rw [resizeTo_length]; exact hv
    have hz : (gm.numLabels.zip (gm.adj.map List.length))[v]? = some (gm.numLabels.getD v 0, (NV v).length) := by
      rw [List.getElem?_zip_eq_some]
      exact ⟨by simp [List.getD, hv], hadjl v hv⟩
    rw [List.getElem?_zipWith, hz, List.getElem?_eq_getElem hl]
    exact ⟨_, rfl⟩
  simp only [Nat.zero_add] at g3 g4
  have hfac : ∀ f i v b, (NF f)[i]? = some v → getBuffer ins f i = some b → ∃ b0, b = Buffer.assign b0 (gm.numLabels.getD v 0) r.o.neutral ∧ (b0 = Buffer.fresh ∨ getBuffer s.facIn f i = some b0) := by
    intro f i v b hi hb
    have hf := hN.rangeF v f (List.mem_of_getElem? hi)
    unfold getBuffer at hb
    rw [g3 f hf] at hb
    simp only [Option.bind_some] at hb
    unfold assignFactor at hb
    rw [List.getElem?_map] at hb
    have hil := (List.getElem?_eq_some_iff.mp hi).1
    simp only [List.length_map] at hb
    obtain ⟨b0, hb0, h0⟩ := resizeTo_get (s.facIn.getD f []) hil (Buffer.fresh (V := V))
    have hz : ((resizeTo (s.facIn.getD f []) (NF f).length Buffer.fresh).zip ((NF f).map (fun v => gm.numLabels.getD v 0)))[i]? = some (b0, gm.numLabels.getD v 0) := by
      rw [List.getElem?_zip_eq_some]
      exact ⟨hb0, by rw [List.getElem?_map, hi]; rfl⟩
    rw [hz] at hb
    simp only [Option.map_some, Option.some.injEq] at hb
    refine ⟨b0, hb.symm, ?_⟩
    rcases h0 with h0 | h0
    · exact Or.inl h0
    · right
      unfold getBuffer
      cases hsf : s.facIn[f]? with
      | none => rw [List.getD, hsf] at h0; simp at h0
      | some row =>
        rw [List.getD, hsf] at h0
        exact h0
  refine ⟨rfl, ?_, ?_, ?_, ?_, ?_, ?_⟩
  · intro v hv
    obtain ⟨old, e⟩ := hvar v hv
    exact ⟨_, e, by simp [assignVariable, resizeTo_length]⟩
  · intro f hf
    exact ⟨_, g3 f hf, by simp [assignFactor, resizeTo_length]⟩
  · intro v j b hb
    by_cases hv : v < gm.numLabels.length
    · obtain ⟨old, e⟩ := hvar v hv
      unfold getBuffer at hb
      simp only at hb
      rw [e] at hb
      simp only [Option.bind_some, assignVariable] at hb
      rw [List.getElem?_map] at hb
      cases hq : (resizeTo old (NV v).length Buffer.fresh)[j]? with
      | none => rw [hq] at hb; simp at hb
      | some b0 =>
        rw [hq] at hb
        simp at hb
        subst hb
        exact assign_length (hpos v hv) _
    · exfalso
      unfold getBuffer at hb
      simp only at hb
      rw [List.getElem?_eq_none] at hb
      · simp at hb
      · simp; omega
  · intro f i v b hi hb
    obtain ⟨b0, rfl, h0⟩ := hfac f i v b hi hb
    have hv := hN.rangeV v f (List.mem_of_getElem? hi)
    obtain ⟨l1, l2⟩ := assign_length (b := b0) (hpos v hv) r.o.neutral
    refine ⟨l1, l2, fun h2 => ?_⟩
    apply assign_neutral (hpos v hv)
    · rcases h0 with rfl | h0
      · simp [Buffer.fresh]
      · exact (hpre f i v b0 hi h2 h0).1
    · rcases h0 with rfl | h0
      · simp [Buffer.fresh]
      · exact (hpre f i v b0 hi h2 h0).2
  · intro v j f hj
    have hv : v ∈ NF f := (hN.mem v f).mp (List.mem_of_getElem? hj)
    refine ⟨(NF f).idxOf v, ?_, ?_⟩
    · rw [List.getElem?_eq_getElem (List.idxOf_lt_length_of_mem hv), List.getElem_idxOf]
    · have := g5 v j f hj
      rw [if_pos (Nat.zero_le _)] at this
      exact this
  · intro f i v hi
    have hv : v ∈ NF f := List.mem_of_getElem? hi
    have hf := (hN.mem v f).mpr hv
    refine ⟨(NV v).idxOf f, ?_, ?_⟩
    · rw [List.getElem?_eq_getElem (List.idxOf_lt_length_of_mem hf), List.getElem_idxOf]
    · unfold getPointer
      simp only
      rw [g4 f (hN.rangeF v f hv)]
      simp only [Option.bind_some]
      rw [List.getElem?_map, hi]
      rfl

theorem construct_ok (hN : Net gm NV NF) (hp : ∀ n ∈ gm.numLabels, 0 < n) (isAcyclic : Option Bool) (useNormalization : Bool) :
    ∃ s, construct r gm isAcyclic useNormalization = some s ∧ Inv r gm NV NF s ∧ s.isAcyclic = isAcyclic ∧ s.useNormalization = useNormalization :=
  setHulls_ok hN hp rfl (fun f i v b _ _ h => by simp [getBuffer] at h)

theorem reset_ok (hN : Net gm NV NF) (hp : ∀ n ∈ gm.numLabels, 0 < n) {s : MP V} (hI : Inv r gm NV NF s) :
    ∃ s', reset r s = some s' ∧ Inv r gm NV NF s' ∧ s'.isAcyclic = s.isAcyclic ∧ s'.useNormalization = s.useNormalization := by
  refine setHulls_ok hN hp hI.model ?_
  intro f i v b hi h2 hb
  obtain ⟨_, _, h3⟩ := hI.facBuf f i v b hi hb
  obtain ⟨e1, e2⟩ := h3 h2
  rw [e1, e2]
  exact ⟨fun x hx => List.eq_of_mem_replicate hx, fun x hx => List.eq_of_mem_replicate hx⟩

/-! ### inferAcyclic -/

theorem start_ok (hN : Net gm NV NF) {s : MP V} (hI : Inv r gm NV NF s) (hn : s.useNormalization = norm) :
    J r gm norm NV NF GV GF s ∅ ∅ (start gm).counterVar2Fac (start gm).counterFac2Var (start gm).readyVar2Fac (start gm).readyFac2Var := by
  refine ⟨hI, by simp [ContV], by simp [ContF], hn, ?_, ?_⟩
  · refine Half.start hN.nodupV ?_ ?_
    · intro v hv
      obtain ⟨f, hf⟩ := List.exists_mem_of_ne_nil _ hv
      exact hN.rangeV v f ((hN.mem v f).mp hf)
    · apply List.ext_getElem?
      intro v
      rw [List.getElem?_map, List.getElem?_map]
      by_cases hv : v < gm.numLabels.length
      · rw [hN.adj v hv, List.getElem?_range hv]; rfl
      · rw [List.getElem?_eq_none (by rw [hN.adjLen]; omega), List.getElem?_eq_none (by simp; omega)]; rfl
  · refine Half.start hN.nodupF ?_ ?_
    · intro f hf
      obtain ⟨v, hv⟩ := List.exists_mem_of_ne_nil _ hf
      exact hN.rangeF v f hv
    · apply List.ext_getElem?
      intro f
      rw [List.getElem?_map, List.getElem?_map]
      by_cases hf : f < gm.factors.length
      · have hrec := List.getElem?_eq_getElem hf
        rw [hrec, List.getElem?_range hf]
        simp only [Option.map_some]
        rw [(hN.scope f _ hrec).2.1]
      · rw [List.getElem?_eq_none (by omega), List.getElem?_eq_none (by simp; omega)]; rfl

theorem messages_bound (hN : Net gm NV NF) (S : Finset (Nat × Nat)) (hS : ∀ f v, (f, v) ∈ S → v ∈ NF f) : S.card ≤ messages gm := by
  have hsub : S ⊆ (Finset.range gm.factors.length).biUnion (fun f => (NF f).toFinset.image (fun v => (f, v))) := by
    rintro ⟨f, v⟩ hm
    have hv := hS f v hm
    simp only [Finset.mem_biUnion, Finset.mem_range, Finset.mem_image, List.mem_toFinset, Prod.mk.injEq]
    exact ⟨f, hN.rangeF v f hv, v, hv, rfl, rfl⟩
  refine (Finset.card_le_card hsub).trans (Finset.card_biUnion_le.trans ?_)
  have h1 : ∀ f ∈ Finset.range gm.factors.length, ((NF f).toFinset.image (fun v => (f, v))).card ≤ (NF f).length := by
    intro f _
    exact Finset.card_image_le.trans (List.toFinset_card_le _)
  refine (Finset.sum_le_sum h1).trans ?_
  have h2 : messages gm = ((List.range gm.factors.length).map (fun f => (NF f).length)).sum := by
    unfold messages
    congr 1
    apply List.ext_getElem?
    intro f
    rw [List.getElem?_map, List.getElem?_map]
    by_cases hf : f < gm.factors.length
    · have hrec := List.getElem?_eq_getElem hf
      rw [hrec, List.getElem?_range hf]
      simp only [Option.map_some]
      rw [(hN.scope f _ hrec).2.1]
    · rw [List.getElem?_eq_none (by omega), List.getElem?_eq_none (by simp; omega)]; rfl
  rw [h2, Finset.sum_range, ← List.sum_ofFn]
  simp [List.ofFn_eq_map, List.map_map, Function.comp_def, ← List.map_coe_finRange_eq_range]

/-- `inferAcyclic` ends, and if the visitor does not stop it, all messages of a forest have been sent. -/
theorem inferAcyclic_ok (hN : Net gm NV NF) (hC : Closed r gm norm NV NF GV GF) {s : MP V} (hI : Inv r gm NV NF s) (hn : s.useNormalization = norm) (visit : Nat → Bool) :
    ∃ s', inferAcyclic r visit s = some s' ∧ Inv r gm NV NF s' ∧ s'.useNormalization = norm ∧ s'.isAcyclic = s.isAcyclic ∧
      ((∀ k, visit k = false) → ∃ sV sF cV cF, J r gm norm NV NF GV GF s' sV sF cV cF [] []) := by
  unfold inferAcyclic
  rw [hI.model]
  exact rounds_ok hN hC (M := messages gm) (messages_bound hN) visit (start_ok hN hI hn) (by simp)

end OpenGM.MessagePassing
