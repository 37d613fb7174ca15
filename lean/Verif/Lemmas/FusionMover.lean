import Verif.Model.FusionMover
import Verif.Spec.Fusion
import Verif.Lemmas.EnergySum
import Verif.Lemmas.DPInfer
import Verif.Lemmas.Built
/-
FusionMover: the variables of the fusion model and its functions.
-/
namespace OpenGM.Fusion
open Spec
variable {V : Type}

/-- The labels differ. -/
def df (A B : List Nat) (v : Nat) : Bool := decide (A[v]? ≠ B[v]?)

/-- Position of a variable among the differing ones. -/
def pos (A B : List Nat) (v : Nat) : Nat := (differing A B).idxOf v

theorem differing_sorted (A B : List Nat) : (differing A B).Pairwise (· < ·) := List.Pairwise.filter _ List.pairwise_lt_range

theorem mem_differing {A B : List Nat} {v : Nat} : v ∈ differing A B ↔ v < A.length ∧ A[v]? ≠ B[v]? := by simp [differing]

theorem get_pos {A B : List Nat} {v : Nat} (h : v ∈ differing A B) : (differing A B)[pos A B v]? = some v := by
  unfold pos
  rw [List.getElem?_eq_getElem (List.idxOf_lt_length_of_mem h)]
  exact congrArg some (List.getElem_idxOf _)

theorem pos_of_get {A B : List Nat} {i v : Nat} (h : (differing A B)[i]? = some v) : pos A B v = i := by
  have hnd : (differing A B).Nodup := (differing_sorted A B).imp (fun h => Nat.ne_of_lt h)
  obtain ⟨hi, rfl⟩ := List.getElem?_eq_some_iff.mp h
  exact hnd.idxOf_getElem i hi

theorem pos_lt {A B : List Nat} {v : Nat} (h : v ∈ differing A B) : pos A B v < (differing A B).length := List.idxOf_lt_length_of_mem h

theorem pos_mono {A B : List Nat} {v w : Nat} (hv : v ∈ differing A B) (hw : w ∈ differing A B) (h : v < w) : pos A B v < pos A B w := by
  by_contra hle
  have h1 := get_pos hv
  have h2 := get_pos hw
  obtain ⟨h3, e3⟩ := List.getElem?_eq_some_iff.mp h1
  obtain ⟨h4, e4⟩ := List.getElem?_eq_some_iff.mp h2
  rcases Nat.lt_or_eq_of_le (Nat.le_of_not_lt hle) with hlt | heq
  · have := List.pairwise_iff_getElem.mp (differing_sorted A B) _ _ h4 h3 hlt
    omega
  · rw [heq] at h2
    rw [h1] at h2
    cases h2
    omega

/-! ### setup -/

/-- The tables of local variables. -/
structure Numbered (gm : GM V) (A B : List Nat) (k : Nat) (m : Mover V) : Prop where
  model : m.gm = gm
  l2gLen : m.localToGlobalVi.length = gm.numberOfVariables
  g2lLen : m.globalToLocalVi.length = gm.numberOfVariables
  count : m.nLocalVar = ((List.range k).filter (df A B)).length
  maps : ∀ i v : Nat, ((List.range k).filter (df A B))[i]? = some v → m.localToGlobalVi[i]? = some v ∧ m.globalToLocalVi[v]? = some i

theorem setupLoop_spec {gm : GM V} {A B : List Nat} (hA : A.length = gm.numberOfVariables) (hB : B.length = gm.numberOfVariables) :
    ∀ (k vi : Nat) (m : Mover V), vi + k = gm.numberOfVariables → Numbered gm A B vi m → ∃ m', setupLoop A B vi k m = some m' ∧ Numbered gm A B gm.numberOfVariables m'
  | 0, vi, m, hk, h => ⟨m, rfl, by rw [← hk]; exact h⟩
  | k + 1, vi, m, hk, h => by
    unfold setupLoop
    rw [List.getElem?_eq_getElem (by omega), List.getElem?_eq_getElem (by omega)]
    simp only
    have hle : ((List.range vi).filter (df A B)).length ≤ vi := by simpa using List.length_filter_le (df A B) (List.range vi)
    split
    · rename_i hne
      have hdf : df A B vi = true := by
        unfold df
        rw [List.getElem?_eq_getElem (by omega), List.getElem?_eq_getElem (by omega)]
        simpa using hne
      have hf : (List.range (vi + 1)).filter (df A B) = (List.range vi).filter (df A B) ++ [vi] := by
        rw [List.range_succ, List.filter_append]
        simp [hdf]
      rw [setAt_of_lt _ (by rw [h.l2gLen, h.count]; omega), setAt_of_lt _ (by rw [h.g2lLen]; omega)]
      simp only
      refine setupLoop_spec hA hB k (vi + 1) _ (by omega) ⟨h.model, by simp [h.l2gLen], by simp [h.g2lLen], by simp [hf, h.count], ?_⟩
      intro i v hi
      rw [hf] at hi
      simp only
      by_cases hlt : i < ((List.range vi).filter (df A B)).length
      · rw [List.getElem?_append_left hlt] at hi
        obtain ⟨h1, h2⟩ := h.maps i v hi
        have hv : v < vi := by
          have := List.mem_of_getElem? hi
          simp at this
          exact this.1
        rw [List.getElem?_set_ne (by rw [h.count]; omega), List.getElem?_set_ne (by omega)]
        exact ⟨h1, h2⟩
      · have hi' := (List.getElem?_eq_some_iff.mp hi).1
        simp only [List.length_append, List.length_singleton] at hi'
        have hieq : i = ((List.range vi).filter (df A B)).length := by omega
        rw [List.getElem?_append_right (by omega), hieq] at hi
        simp only [Nat.sub_self, List.getElem?_cons_zero, Option.some.injEq] at hi
        subst hi
        rw [← h.count] at hieq
        subst hieq
        rw [List.getElem?_set_self (by rw [h.l2gLen, h.count]; omega), List.getElem?_set_self (by rw [h.g2lLen]; omega)]
        exact ⟨rfl, rfl⟩
    · rename_i hne
      have hdf : df A B vi = false := by
        unfold df
        rw [List.getElem?_eq_getElem (by omega), List.getElem?_eq_getElem (by omega)]
        simpa using hne
      have hf : (List.range (vi + 1)).filter (df A B) = (List.range vi).filter (df A B) := by
        rw [List.range_succ, List.filter_append]
        simp [hdf]
      exact setupLoop_spec hA hB k (vi + 1) m (by omega) ⟨h.model, h.l2gLen, h.g2lLen, by rw [hf]; exact h.count, by rw [hf]; exact h.maps⟩

/-- The state after `setup` with the labelings `A` and `B`. -/
structure Prepared (bop : V → V → Bool) (gm : GM V) (A B : List Nat) (valA valB : V) (s : Setup V) : Prop where
  model : s.gm = gm
  argA : s.argA = A
  argB : s.argB = B
  argBest : s.argBest = if bop valA valB then A else B
  valueBest : s.valueBest = if bop valA valB then valA else valB
  bestLabel : s.bestLabel = if bop valA valB then 0 else 1
  argResult : s.argResult = A
  l2gLen : s.localToGlobalVi.length = gm.numberOfVariables
  g2lLen : s.globalToLocalVi.length = gm.numberOfVariables
  count : s.nLocalVar = (differing A B).length
  maps : ∀ i v : Nat, (differing A B)[i]? = some v → s.localToGlobalVi[i]? = some v ∧ s.globalToLocalVi[v]? = some i

theorem setup_spec {gm : GM V} {A B R : List Nat} (hA : A.length = gm.numberOfVariables) (hB : B.length = gm.numberOfVariables) (hR : R.length = gm.numberOfVariables)
    (bop : V → V → Bool) (valA valB : V) {m : Mover V} (hg : gm = m.gm) (h1 : m.localToGlobalVi.length = gm.numberOfVariables) (h2 : m.globalToLocalVi.length = gm.numberOfVariables) :
    ∃ s, setup bop m A B R valA valB = some s ∧ Prepared bop gm A B valA valB s := by
  subst hg
  obtain ⟨m', e1, e2⟩ := setupLoop_spec hA hB m.gm.numberOfVariables 0 { m with nLocalVar := 0 } (by omega) ⟨rfl, h1, h2, by simp, by simp⟩
  have hD : (List.range m.gm.numberOfVariables).filter (df A B) = differing A B := by rw [← hA]; rfl
  have hr : A ++ R.drop A.length = A := by rw [hA, ← hR, List.drop_length, List.append_nil]
  unfold setup
  rw [e1]
  simp only
  rw [if_neg (by omega), hr]
  have hc := e2.count
  have hm := e2.maps
  rw [hD] at hc hm
  by_cases hb : bop valA valB = true
  · rw [if_pos hb]
    exact ⟨_, rfl, e2.model, rfl, rfl, by simp [hb], by simp [hb], by simp [hb], rfl, e2.l2gLen, e2.g2lLen, hc, hm⟩
  · rw [if_neg hb]
    exact ⟨_, rfl, e2.model, rfl, rfl, by simp [hb], by simp [hb], by simp [hb], rfl, e2.l2gLen, e2.g2lLen, hc, hm⟩

/-! ### The functions of the fusion model -/

/-- Labels 0 and 1. -/
def Bin (n : Nat) (c : List Nat) : Prop := c.length = n ∧ ∀ l ∈ c, l < 2

theorem mem_binaryTuples : ∀ {n : Nat} {c : List Nat}, c ∈ binaryTuples n ↔ Bin n c
  | 0, c => by simp only [binaryTuples, List.mem_singleton, Bin, List.length_eq_zero_iff]; constructor <;> (intro h; simp_all)
  | n + 1, c => by
    simp only [binaryTuples, List.mem_flatMap, List.mem_cons, List.not_mem_nil, or_false]
    constructor
    · rintro ⟨t, h1, h2⟩
      obtain ⟨h3, h4⟩ := mem_binaryTuples.mp h1
      rcases h2 with rfl | rfl
      · exact ⟨by simp [h3], by simpa using h4⟩
      · exact ⟨by simp [h3], by simpa using h4⟩
    · rintro ⟨h1, h2⟩
      cases c with
      | nil => simp at h1
      | cons l c =>
        refine ⟨c, mem_binaryTuples.mpr ⟨by simpa using h1, fun l' hl' => h2 l' (by simp [hl'])⟩, ?_⟩
        have := h2 l (by simp)
        rcases (by omega : l = 0 ∨ l = 1) with rfl | rfl
        · exact Or.inl rfl
        · exact Or.inr rfl

theorem binaryFunction_spec {n : Nat} {read : List Nat → Option V} (h : ∀ c, Bin n c → ∃ v, read c = some v) :
    ∃ fn, binaryFunction n read = some fn ∧ fn.shape = List.replicate n 2 ∧ ∀ c, Bin n c → read c = some (fn.table c) := by
  unfold binaryFunction
  rw [if_pos]
  · obtain ⟨d, hd⟩ := h (List.replicate n 0) ⟨by simp, by simp +contextual⟩
    rw [hd]
    refine ⟨_, rfl, rfl, ?_⟩
    intro c hc
    obtain ⟨v, hv⟩ := h c hc
    simp only [hv]
  · rw [List.all_eq_true]
    intro c hc
    obtain ⟨v, hv⟩ := h c (mem_binaryTuples.mp hc)
    rw [hv]
    rfl

/-- The labels of the variables `vs` for the labels `c` of the differing ones among them. -/
def mixBuf (A B : List Nat) : List Nat → List Nat → List Nat
  | [], _ => []
  | v :: vs, c =>
    if df A B v then
      match c with
      | [] => []
      | l :: c => (if l = 0 then A.getD v 0 else B.getD v 0) :: mixBuf A B vs c
    else A.getD v 0 :: mixBuf A B vs c

variable {gm : GM V} {p : Problem V} {A B : List Nat} {f : FactorRec}

/-- The variables of the factor from position `i`. -/
def VisFrom (gm : GM V) (f : FactorRec) (i : Nat) (vs : List Nat) : Prop := ∀ j, j < vs.length → gm.visAt f (i + j) = vs[j]?

theorem VisFrom.cons {i v : Nat} {vs : List Nat} (h : VisFrom gm f i (v :: vs)) : gm.visAt f i = some v ∧ VisFrom gm f (i + 1) vs := by
  refine ⟨by simpa using h 0 (by simp), ?_⟩
  intro j hj
  have := h (j + 1) (by simpa using hj)
  rw [show i + 1 + j = i + (j + 1) by omega, this]
  simp

theorem visFrom {t : Term V} (hm : FactorMatches gm f t) : VisFrom gm f 0 t.vars := by
  intro j hj
  rw [Nat.zero_add]
  exact hm.visAt j (by rw [hm.visSize]; exact hj)

theorem selectLabel_spec {v l : Nat} (hA : v < A.length) (hB : v < B.length) (hl : l < 2) : selectLabel A B v l = some (if l = 0 then A.getD v 0 else B.getD v 0) := by
  unfold selectLabel
  rw [if_pos hl]
  split <;> simp [List.getD, hA, hB]

theorem viewBuffer_spec (hAB : A.length = B.length) (begin_ : List Nat) : ∀ (vs : List Nat) (i : Nat) (c : List Nat), VisFrom gm f i vs → (∀ v ∈ vs, v < A.length) → (∀ v ∈ vs, df A B v = true) →
    Bin vs.length c → begin_.drop i = c → viewBuffer gm f A B begin_ i vs.length = some (mixBuf A B vs c)
  | [], i, c, _, _, _, _, _ => by simp [viewBuffer, mixBuf]
  | v :: vs, i, c, hv, hr, hd, hc, hb => by
    obtain ⟨h1, h2⟩ := hv.cons
    cases c with
    | nil => have := hc.1; simp at this
    | cons l c =>
      have hl := hc.2 l (by simp)
      have hg : begin_[i]? = some l := by
        have := congrArg (fun x => x[0]?) hb
        simpa using this
      have hdrop : begin_.drop (i + 1) = c := by
        have := congrArg List.tail hb
        simpa using this
      rw [List.length_cons]
      unfold viewBuffer
      rw [h1, hg]
      simp only
      rw [selectLabel_spec (hr v (by simp)) (by rw [← hAB]; exact hr v (by simp)) hl]
      simp only
      rw [viewBuffer_spec hAB begin_ vs (i + 1) c h2 (fun w hw => hr w (by simp [hw])) (fun w hw => hd w (by simp [hw])) ⟨by simpa using hc.1, fun l' hl' => hc.2 l' (by simp [hl'])⟩ hdrop]
      simp [mixBuf, hd v (by simp)]

theorem df_ne {v a b : Nat} (ha : A[v]? = some a) (hb : B[v]? = some b) : (a ≠ b) ↔ df A B v = true := by simp [df, ha, hb]

theorem fixPositions_spec (hAB : A.length = B.length) : ∀ (vs : List Nat) (i : Nat), VisFrom gm f i vs → (∀ v ∈ vs, v < A.length) →
    ∃ ps buf, fixPositions gm f A B i vs.length = some (ps, buf) ∧ ps.length = (vs.filter (df A B)).length ∧
      ∀ (pre c : List Nat), pre.length = i → Bin ps.length c → fixBuffer gm f A B ps c (pre ++ buf) = some (pre ++ mixBuf A B vs c)
  | [], i, _, _ => ⟨[], [], rfl, rfl, by intro pre c _ _; simp [fixBuffer, mixBuf]⟩
  | v :: vs, i, hv, hr => by
    obtain ⟨h1, h2⟩ := hv.cons
    have hvA : v < A.length := hr v (by simp)
    obtain ⟨ps, buf, e1, e2, e3⟩ := fixPositions_spec hAB vs (i + 1) h2 (fun w hw => hr w (by simp [hw]))
    have ga : A[v]? = some (A.getD v 0) := by simp [List.getD, hvA]
    have gb : B[v]? = some (B.getD v 0) := by simp [List.getD, (by omega : v < B.length)]
    rw [List.length_cons]
    unfold fixPositions
    rw [h1]
    simp only
    rw [ga, gb, e1]
    simp only
    by_cases hd : df A B v = true
    · rw [if_pos ((df_ne ga gb).mpr hd)]
      refine ⟨_, _, rfl, by simp [hd, e2], ?_⟩
      intro pre c hpre hc
      cases c with
      | nil => have := hc.1; simp at this
      | cons l c =>
        unfold fixBuffer
        simp only
        rw [h1]
        simp only
        rw [selectLabel_spec hvA (by omega) (hc.2 l (by simp))]
        simp only
        rw [setAt_of_lt _ (by simp; omega)]
        simp only
        have hset : (pre ++ 0 :: buf).set i (if l = 0 then A.getD v 0 else B.getD v 0) = (pre ++ [if l = 0 then A.getD v 0 else B.getD v 0]) ++ buf := by
          rw [List.set_append_right _ _ (by omega), hpre]
          simp
        rw [hset, e3 _ c (by simp [hpre]) ⟨by simpa using hc.1, fun l' hl' => hc.2 l' (by simp [hl'])⟩]
        simp [mixBuf, hd]
    · rw [if_neg (fun h => hd ((df_ne ga gb).mp h))]
      refine ⟨_, _, rfl, by simp [hd, e2], ?_⟩
      intro pre c hpre hc
      have := e3 (pre ++ [A.getD v 0]) c (by simp [hpre]) hc
      rw [List.append_assoc, List.singleton_append] at this
      rw [this]
      simp [mixBuf, hd]

theorem mixBuf_shape {nl : List Nat} (hA : A.length = nl.length) (hB : B.length = nl.length) (hAl : ∀ v l n : Nat, A[v]? = some l → nl[v]? = some n → l < n)
    (hBl : ∀ v l n : Nat, B[v]? = some l → nl[v]? = some n → l < n) : ∀ (vs c : List Nat), (∀ v ∈ vs, v < nl.length) → Bin (vs.filter (df A B)).length c →
    InShape (restrict nl vs) (mixBuf A B vs c)
  | [], c, _, _ => by simp [restrict, mixBuf, InShape]
  | v :: vs, c, hr, hc => by
    have hv : v < nl.length := hr v (by simp)
    have gn : nl[v]? = some (nl.getD v 0) := by simp [List.getD, hv]
    have ga : A.getD v 0 < nl.getD v 0 := hAl v _ _ (by simp [List.getD, (by omega : v < A.length)]) gn
    have gb : B.getD v 0 < nl.getD v 0 := hBl v _ _ (by simp [List.getD, (by omega : v < B.length)]) gn
    simp only [restrict, List.map_cons]
    unfold mixBuf
    by_cases hd : df A B v = true
    · rw [if_pos hd]
      cases c with
      | nil => have := hc.1; simp [hd] at this
      | cons l c =>
        simp only [InShape]
        refine ⟨by split <;> assumption, mixBuf_shape hA hB hAl hBl vs c (fun w hw => hr w (by simp [hw])) ⟨?_, fun l' hl' => hc.2 l' (by simp [hl'])⟩⟩
        have := hc.1
        simpa [hd] using this
    · rw [if_neg hd]
      simp only [InShape]
      refine ⟨ga, mixBuf_shape hA hB hAl hBl vs c (fun w hw => hr w (by simp [hw])) ?_⟩
      simpa [hd] using hc

/-- The buffer is the restriction of the fused labeling. -/
theorem mixBuf_fuses {y x : List Nat} (hAB : A.length = B.length) (hx : Fuses A B y x) (hy : Bin (differing A B).length y) : ∀ (vs : List Nat), (∀ v ∈ vs, v < A.length) →
    mixBuf A B vs (restrict y ((vs.filter (df A B)).map (pos A B))) = restrict x vs
  | [], _ => by simp [restrict, mixBuf]
  | v :: vs, hr => by
    have ih := mixBuf_fuses hAB hx hy vs (fun w hw => hr w (by simp [hw]))
    have hvA := hr v (by simp)
    have hvx : v < x.length := by rw [hx.length]; exact hvA
    unfold mixBuf
    by_cases hd : df A B v = true
    · rw [if_pos hd, List.filter_cons_of_pos hd]
      simp only [restrict, List.map_cons] at ih ⊢
      rw [ih]
      congr 1
      have hmem : v ∈ differing A B := mem_differing.mpr ⟨hvA, by simpa [df] using hd⟩
      have hg := get_pos hmem
      have hlt : pos A B v < y.length := by rw [hy.1]; exact pos_lt hmem
      have hyl := hy.2 _ (List.getElem_mem hlt)
      have hyg : y[pos A B v]? = some y[pos A B v] := List.getElem?_eq_getElem hlt
      rcases (by omega : y[pos A B v] = 0 ∨ y[pos A B v] = 1) with h0 | h1
      · rw [h0] at hyg
        have := hx.zero _ _ hg hyg
        simp [List.getD, hyg, this]
      · rw [h1] at hyg
        have := hx.one _ _ hg hyg
        simp [List.getD, hyg, this]
    · rw [if_neg hd, List.filter_cons_of_neg hd]
      simp only [restrict, List.map_cons] at ih ⊢
      rw [ih]
      congr 1
      have := hx.same v (by simpa [df] using hd)
      simp [List.getD, this]

end OpenGM.Fusion
