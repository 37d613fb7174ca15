import Verif.Lemmas.LazyPaths
/-
Lemmas about the trial of one path in the model of LazyFlipper.
-/
namespace OpenGM.LazyFlip
open Spec Movemaker
variable {V : Type}

/-- The object between two steps: it holds the labeling `x`. -/
structure Good (o : InvOperation V) (gm : GM V) (p : Problem V) (lf : LF V) (x : List Nat) : Prop where
  gm : lf.m.gm = gm
  tracks : Tracks o lf.m p x
  adjOk : AdjOk p.numLabels.length lf.adj
  share : ∀ a b, Nb lf.adj a b ↔ Share p a b
  tag : ∀ i, TagOk false p.numLabels.length (lf.act i)
  wf : WF p.numLabels.length lf.adj lf.forest

/-- What the two algorithms need. -/
structure Fits (c : Call V) (p : Problem V) (multi : Bool) : Prop where
  icm : IcmContext c.o c.bop
  laws : c.multiplier = true ∨ c.o.Laws
  binary : multi = false → ∀ k ∈ p.numLabels, k = 2
  multilabel : multi = true → Replaceable c.o c.bop c.reevaluate ∧ ∀ k ∈ p.numLabels, 2 ≤ k

theorem flipped_spec (x : List Nat) : ∀ vs : List Nat, (∀ v ∈ vs, ∃ s, x[v]? = some s ∧ s ≤ 1) → flipped x vs = some (vs.map (fun v => 1 - x.getD v 0))
  | [], _ => rfl
  | v :: vs, h => by
    obtain ⟨s, h1, h2⟩ := h v (by simp)
    unfold flipped
    rw [h1]
    simp only
    rw [if_pos h2, flipped_spec x vs (fun w hw => h w (by simp [hw]))]
    simp [h1]

theorem agree_reverse {P x y : List Nat} : AgreeOutside P.reverse x y ↔ AgreeOutside P x y := by simp [AgreeOutside]

theorem changed_reverse {P x y : List Nat} : AllChanged P.reverse x y ↔ AllChanged P x y := by simp [AllChanged]

theorem tryPath_spec {c : Call V} {p : Problem V} {multi : Bool} (hF : Fits c p multi) {gm : GM V} {lf : LF V} {x : List Nat} (hg : Good c.o gm p lf x)
    {i : Nat} {P : List Nat} (hP : Path lf.forest i P) :
    ∃ b m y, tryPath multi c lf i = some (b, { lf with m := m }) ∧ Good c.o gm p { lf with m := m } y ∧
      (b = false → y = x ∧ NI c.o.toOperation c.bop p x P) ∧
      (b = true → AgreeOutside P x y ∧ c.bop (p.energy c.o.toOperation y) (p.energy c.o.toOperation x) = true) := by
  have hcan := hg.wf.path_spec hP
  obtain ⟨hcan, nd, hnd, _, _⟩ := hcan
  obtain ⟨hnod, hlt, hne⟩ := hcan.props hg.adjOk
  have hx := hg.tracks.labeling
  have hpf := pathFor_spec hg.wf hP hnd
  have hnod' : P.reverse.Nodup := List.nodup_reverse.mpr hnod
  have hlt' : ∀ v ∈ P.reverse, v < p.numLabels.length := fun v hv => hlt v (List.mem_reverse.mp hv)
  have hgood : ∀ (m : Movemaker V) y, Tracks c.o m p y → m.gm = lf.m.gm → Good c.o gm p { lf with m := m } y := by
    intro m y ht hm
    refine ⟨by simp only; rw [hm]; exact hg.gm, ht, hg.adjOk, hg.share, ?_, hg.wf⟩
    intro j
    have := hg.tag j
    cases j <;> exact this
  cases multi with
  | true =>
    obtain ⟨hrep, h2⟩ := hF.multilabel rfl
    obtain ⟨y, m', e1, e2, e3, e4, _, e6, e7⟩ := moveOptimallyChanging_spec hF.icm.comm c.bop hF.icm.order hF.icm.reflects c.reevaluate hrep hg.tracks P.reverse
      (by simpa using hne) hnod' (fun v hv => ⟨p.numLabels[v]'(hlt' v hv), List.getElem?_eq_getElem (hlt' v hv), h2 _ (List.getElem_mem _)⟩)
    have hy := e7 hF.icm.preserves
    refine ⟨c.bop m'.value lf.m.value, m', y, ?_, hgood m' y e2 e3, ?_, ?_⟩
    · unfold tryPath tryMulti
      simp only [if_true]
      rw [hnd]
      simp only
      rw [hpf]
      simp only
      rw [e1]
    · intro hb
      have hyx : y = x := by
        rcases hy with h | h
        · exact h
        · simp only [Movemaker.value] at hb
          rw [e2.energy, hg.tracks.energy] at hb
          rw [hb] at h
          simp at h
      refine ⟨hyx, ?_⟩
      intro z hz hza hzc
      have := e6 z hz (agree_reverse.mpr hza) (changed_reverse.mpr hzc)
      rwa [hyx] at this
    · intro hb
      refine ⟨agree_reverse.mp e4, ?_⟩
      simp only [Movemaker.value] at hb
      rwa [e2.energy, hg.tracks.energy] at hb
  | false =>
    have h2 := hF.binary rfl
    have hlab : ∀ z : List Nat, p.Labeling z → ∀ v ∈ P.reverse, ∃ s, z[v]? = some s ∧ s ≤ 1 := by
      intro z hz v hv
      have hvn := hlt' v hv
      have hvz : v < z.length := by rw [hz.1]; exact hvn
      have := hz.2 v _ _ (List.getElem?_eq_getElem hvz) (List.getElem?_eq_getElem hvn)
      rw [h2 _ (List.getElem_mem _)] at this
      exact ⟨_, List.getElem?_eq_getElem hvz, by omega⟩
    have hfl := flipped_spec x P.reverse (hlab x hx)
    have hlx : ∀ v ∈ P.reverse, v < x.length := fun v hv => by rw [hx.1]; exact hlt' v hv
    have hir : InRange p.numLabels P.reverse (P.reverse.map (fun v => 1 - x.getD v 0)) := by
      refine ⟨by simp, ?_⟩
      intro j v l k h1 h3 h4
      rw [h2 k (List.mem_of_getElem? h4)]
      rw [List.getElem?_map, h1] at h3
      simp only [Option.map_some, Option.some.injEq] at h3
      omega
    have hva := valueAfterMove_spec c.multiplier hF.laws hg.tracks P.reverse _ hnod' hlt' hir
    obtain ⟨m2, v1, v2, v3⟩ := move_spec c.multiplier hF.laws hg.tracks P.reverse _ hnod' hlt' hir
    by_cases hb : c.bop (p.energy c.o.toOperation (fill x P.reverse (P.reverse.map (fun v => 1 - x.getD v 0)))) lf.m.value = true
    · refine ⟨true, m2, _, ?_, hgood m2 _ v2 v3, by simp, ?_⟩
      · unfold tryPath tryBinary
        simp only [Bool.false_eq_true, if_false]
        rw [hnd]
        simp only
        rw [hpf]
        simp only
        rw [hg.tracks.state, hfl]
        simp only
        rw [hva]
        simp only
        rw [if_pos hb, hg.tracks.state, hfl]
        simp only
        rw [v1]
      · intro _
        refine ⟨agree_reverse.mp (agree_fill _), ?_⟩
        simp only [Movemaker.value] at hb
        rwa [hg.tracks.energy] at hb
    · refine ⟨false, lf.m, x, ?_, hgood lf.m x hg.tracks rfl, ?_, by simp⟩
      · unfold tryPath tryBinary
        simp only [Bool.false_eq_true, if_false]
        rw [hnd]
        simp only
        rw [hpf]
        simp only
        rw [hg.tracks.state, hfl]
        simp only
        rw [hva]
        simp only
        rw [if_neg hb]
      · intro _
        refine ⟨rfl, ?_⟩
        intro z hz hza hzc
        have hzf : z = fill x P.reverse (P.reverse.map (fun v => 1 - x.getD v 0)) := by
          apply List.ext_getElem?
          intro v
          by_cases hv : v ∈ P.reverse
          · obtain ⟨j, hj, rfl⟩ := List.getElem_of_mem hv
            obtain ⟨sx, x1, x2⟩ := hlab x hx _ hv
            obtain ⟨sz, z1, z2⟩ := hlab z hz _ hv
            have hne' := hzc _ (List.mem_reverse.mp hv)
            rw [x1, z1] at hne'
            have hne'' : sz ≠ sx := fun e => hne' (by rw [e])
            rw [z1, fill_at x P.reverse _ j P.reverse[j] (1 - sx) hnod' hlx (List.getElem?_eq_getElem hj)
              (by rw [List.getElem?_map, List.getElem?_eq_getElem hj]; simp only [Option.map_some, List.getD_eq_getElem?_getD, x1, Option.getD_some])]
            congr 1
            omega
          · rw [fill_other _ _ _ _ hv]
            exact hza.2 v (fun h => hv (List.mem_reverse.mpr h))
        rw [hzf]
        simp only [Movemaker.value] at hb
        rw [hg.tracks.energy] at hb
        simpa using hb

theorem act_setAct_same (lf : LF V) (i : Bool) (t : Tagging Bool) : (lf.setAct i t).act i = t := by cases i <;> rfl
theorem act_setAct_other (lf : LF V) (i : Bool) (t : Tagging Bool) : (lf.setAct i t).act (!i) = lf.act (!i) := by cases i <;> rfl
theorem act_setAct_other' (lf : LF V) (i : Bool) (t : Tagging Bool) : (lf.setAct (!i) t).act i = lf.act i := by cases i <;> rfl

theorem Good.setAct {o : InvOperation V} {gm : GM V} {p : Problem V} {lf : LF V} {x : List Nat} (h : Good o gm p lf x) (i : Bool) {t : Tagging Bool}
    (ht : TagOk false p.numLabels.length t) : Good o gm p (lf.setAct i t) x := by
  have h0 := h.tag false
  have h1 := h.tag true
  have h2 := h.gm
  have h3 := h.tracks
  have h4 := h.adjOk
  have h5 := h.share
  have h6 := h.wf
  refine ⟨?_, ?_, ?_, ?_, ?_, ?_⟩
  · cases i <;> exact h2
  · cases i <;> exact h3
  · cases i <;> exact h4
  · cases i <;> exact h5
  · intro j
    cases i <;> cases j <;> first | exact ht | exact h0 | exact h1
  · cases i <;> exact h6

/-- The parts of the object that the search does not change. -/
structure Kept (lf lf' : LF V) : Prop where
  adj : lf'.adj = lf.adj
  maxSize : lf'.maxSize = lf.maxSize
  multi : lf'.multi = lf.multi

theorem Kept.refl (lf : LF V) : Kept lf lf := ⟨rfl, rfl, rfl⟩
theorem Kept.trans {a b c : LF V} (h : Kept a b) (h' : Kept b c) : Kept a c :=
  ⟨by rw [h'.adj, h.adj], by rw [h'.maxSize, h.maxSize], by rw [h'.multi, h.multi]⟩
theorem Kept.setAct {lf : LF V} (i : Bool) (t : Tagging Bool) : Kept lf (lf.setAct i t) := by cases i <;> exact ⟨rfl, rfl, rfl⟩
theorem setAct_forest (lf : LF V) (i : Bool) (t : Tagging Bool) : (lf.setAct i t).forest = lf.forest := by cases i <;> rfl
theorem setAct_adj (lf : LF V) (i : Bool) (t : Tagging Bool) : (lf.setAct i t).adj = lf.adj := by cases i <;> rfl

theorem visitPath_spec {c : Call V} {p : Problem V} {multi : Bool} (hF : Fits c p multi) {gm : GM V} {lf : LF V} {x : List Nat} (hg : Good c.o gm p lf x)
    (k : Bool) (calls : Nat) {i : Nat} {P : List Nat} (hP : Path lf.forest i P) :
    ∃ stop lf' calls' y, visitPath multi c k lf calls i = some (stop, lf', calls') ∧ Good c.o gm p lf' y ∧ Kept lf lf' ∧ lf'.forest = lf.forest ∧
      lf'.act (!k) = lf.act (!k) ∧ (stop = true → ∃ j, c.visit j = true) ∧
      ((y = x ∧ NI c.o.toOperation c.bop p x P ∧ lf'.act k = lf.act k) ∨
        (c.bop (p.energy c.o.toOperation y) (p.energy c.o.toOperation x) = true ∧ AgreeOutside P x y ∧
          ∀ w, On (lf'.act k) w ↔ (∃ v ∈ P, w = v ∨ Nb lf.adj v w) ∨ On (lf.act k) w)) := by
  obtain ⟨b, m, y, h1, h2, h3, h4⟩ := tryPath_spec hF hg hP
  cases b with
  | false =>
    obtain ⟨e1, e2⟩ := h3 rfl
    refine ⟨false, { lf with m := m }, calls, y, ?_, h2, ⟨rfl, rfl, rfl⟩, rfl, ?_, by simp, .inl ⟨e1, e2, ?_⟩⟩
    · unfold visitPath
      rw [h1]
    · cases k <;> rfl
    · cases k <;> rfl
  | true =>
    obtain ⟨e1, e2⟩ := h4 rfl
    have hlt := ((hg.wf.path_spec hP).1.props hg.adjOk).2.1
    obtain ⟨t, t1, t2, t3⟩ := activateLoop_spec hg.adjOk P.reverse (lf.act k) (hg.tag k) (fun v hv => hlt v (List.mem_reverse.mp hv))
    refine ⟨c.visit calls, ({ lf with m := m } : LF V).setAct k t, calls + 1, y, ?_, h2.setAct k t2, ?_, ?_, ?_, fun h => ⟨calls, h⟩, .inr ⟨e2, e1, ?_⟩⟩
    · have e : ({ lf with m := m } : LF V).act k = lf.act k := by cases k <;> rfl
      unfold visitPath
      rw [h1]
      simp only
      unfold activate
      rw [pathUp_nodes hg.wf hP]
      simp only
      rw [e, t1]
    · exact Kept.trans (b := { lf with m := m }) ⟨rfl, rfl, rfl⟩ (Kept.setAct k t)
    · rw [setAct_forest]
    · rw [act_setAct_other]
      cases k <;> rfl
    · intro w
      rw [act_setAct_same, t3]
      simp only [List.mem_reverse]

/-- The path is either not improvable or active. -/
def Covered (o : Operation V) (bop : V → V → Bool) (p : Problem V) (x : List Nat) (t : Tagging Bool) (Q : List Nat) : Prop := NI o bop p x Q ∨ Meets t Q

/-- The trial of a path preserves coverage, and covers the tried path. -/
theorem covered_step {o : InvOperation V} {bop : V → V → Bool} (hc : IcmContext o bop) {p : Problem V} {adj : List (List Nat)}
    (hshare : ∀ a b, Nb adj a b ↔ Share p a b) {x y P Q : List Nat} (hx : p.Labeling x) {t t' : Tagging Bool}
    (h : (y = x ∧ NI o.toOperation bop p x P ∧ t' = t) ∨ (bop (p.energy o.toOperation y) (p.energy o.toOperation x) = true ∧ AgreeOutside P x y ∧
      ∀ w, On t' w ↔ (∃ v ∈ P, w = v ∨ Nb adj v w) ∨ On t w)) :
    (NI o.toOperation bop p x Q → Covered o.toOperation bop p y t' Q) ∧ (Meets t Q → Meets t' Q) := by
  rcases h with ⟨rfl, h1, rfl⟩ | ⟨h1, h2, h3⟩
  · exact ⟨fun h => .inl h, fun h => h⟩
  · refine ⟨?_, ?_⟩
    · intro hni
      by_cases hm : Meets t' Q
      · exact .inr hm
      · left
        apply ni_stable hc hx h2 _ hni
        intro u hu v hv
        have hno : ¬ On t' v := fun h => hm ⟨v, hv, h⟩
        rw [h3] at hno
        refine ⟨?_, ?_⟩
        · rintro rfl
          exact hno (.inl ⟨u, hu, .inl rfl⟩)
        · intro hsh
          exact hno (.inl ⟨u, hu, .inr ((hshare u v).mpr hsh)⟩)
    · rintro ⟨v, hv, hon⟩
      exact ⟨v, hv, (h3 v).mpr (.inr hon)⟩

theorem covered_self {o : InvOperation V} {bop : V → V → Bool} {p : Problem V} {adj : List (List Nat)} {x y P : List Nat} (hP : P ≠ []) {t t' : Tagging Bool}
    (h : (y = x ∧ NI o.toOperation bop p x P ∧ t' = t) ∨ (bop (p.energy o.toOperation y) (p.energy o.toOperation x) = true ∧ AgreeOutside P x y ∧
      ∀ w, On t' w ↔ (∃ v ∈ P, w = v ∨ Nb adj v w) ∨ On t w)) : Covered o.toOperation bop p y t' P := by
  rcases h with ⟨rfl, h1, rfl⟩ | ⟨h1, h2, h3⟩
  · exact .inl h1
  · obtain ⟨v, hv⟩ := List.exists_mem_of_ne_nil P hP
    exact .inr ⟨v, hv, (h3 v).mpr (.inl ⟨v, hv, .inl rfl⟩)⟩

end OpenGM.LazyFlip
