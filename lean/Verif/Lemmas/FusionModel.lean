import Verif.Lemmas.FusionMover
/-
FusionMover: the loops that fill the fusion model.
-/
namespace OpenGM.Fusion
open Spec
variable {V : Type}

/-- A model and two of its labelings. -/
structure Pairing (gm : GM V) (p : Problem V) (A B : List Nat) : Prop where
  rep : Represents gm p
  labA : p.Labeling A
  labB : p.Labeling B

/-- `e` is the factor of the fusion model (class, function, variables) for the term `fi`. -/
structure Emit (p : Problem V) (A B : List Nat) (fi : Nat) (e : Nat × Fn V × List Nat) : Prop where
  ty : e.1 < 3
  nonempty : e.2.2 ≠ []
  shape : e.2.1.shape = List.replicate e.2.2.length 2
  term : ∃ t, p.terms[fi]? = some t ∧ e.2.2 = (t.vars.filter (df A B)).map (pos A B) ∧
    ∀ y x, Bin (differing A B).length y → Fuses A B y x → e.2.1.table (restrict y e.2.2) = t.value x

variable {gm : GM V} {p : Problem V} {A B : List Nat} {f : FactorRec} {bop : V → V → Bool} {valA valB : V} {s : Setup V}

theorem Pairing.lenAB (h : Pairing gm p A B) : A.length = B.length := by rw [h.labA.1, h.labB.1]

theorem Pairing.nv (h : Pairing gm p A B) : gm.numberOfVariables = A.length := by rw [GM.numberOfVariables, h.rep.labels, h.labA.1]

theorem df_mem (h : Pairing gm p A B) {v : Nat} (hv : v < p.numLabels.length) : df A B v = true ↔ v ∈ differing A B := by
  rw [mem_differing, h.labA.1]
  simp [df, hv]

theorem bin_restrict {y : List Nat} {n : Nat} (hy : Bin n y) {vs : List Nat} (h : ∀ v ∈ vs, v < n) : Bin vs.length (restrict y vs) := by
  refine ⟨by simp [restrict], ?_⟩
  intro l hl
  simp only [restrict, List.mem_map] at hl
  obtain ⟨v, h1, rfl⟩ := hl
  have hlt : v < y.length := by rw [hy.1]; exact h v h1
  rw [List.getD_eq_getElem?_getD, List.getElem?_eq_getElem hlt]
  exact hy.2 _ (List.getElem_mem hlt)

theorem countFixed_spec (hAB : A.length = B.length) : ∀ (vs : List Nat) (i : Nat), VisFrom gm f i vs → (∀ v ∈ vs, v < A.length) →
    countFixed gm f A B i vs.length = some ((vs.filter (fun v => !df A B v)).length, (vs.filter (df A B)).length)
  | [], i, _, _ => rfl
  | v :: vs, i, hv, hr => by
    obtain ⟨h1, h2⟩ := hv.cons
    have hvA : v < A.length := hr v (by simp)
    have ih := countFixed_spec hAB vs (i + 1) h2 (fun w hw => hr w (by simp [hw]))
    have ga : A[v]? = some (A.getD v 0) := by simp [List.getD, hvA]
    have gb : B[v]? = some (B.getD v 0) := by simp [List.getD, (by omega : v < B.length)]
    rw [List.length_cons]
    unfold countFixed
    rw [h1]
    simp only
    rw [ga, gb, ih]
    simp only
    by_cases hd : df A B v = true
    · rw [if_pos ((df_ne ga gb).mpr hd)]
      simp [hd]
    · rw [if_neg (fun h => hd ((df_ne ga gb).mp h))]
      simp [hd]

theorem localVis_spec {g2l : List Nat} : ∀ (vs : List Nat) (i : Nat), VisFrom gm f i vs → (∀ v ∈ vs, g2l[v]? = some (pos A B v)) →
    localVis gm f g2l i vs.length = some (vs.map (pos A B))
  | [], i, _, _ => rfl
  | v :: vs, i, hv, hg => by
    obtain ⟨h1, h2⟩ := hv.cons
    rw [List.length_cons]
    unfold localVis
    rw [h1]
    simp only
    rw [hg v (by simp), localVis_spec vs (i + 1) h2 (fun w hw => hg w (by simp [hw]))]
    rfl

theorem localVisFix_spec (hAB : A.length = B.length) {g2l : List Nat} : ∀ (vs : List Nat) (i : Nat), VisFrom gm f i vs → (∀ v ∈ vs, v < A.length) →
    (∀ v ∈ vs, df A B v = true → g2l[v]? = some (pos A B v)) → localVisFix gm f A B g2l i vs.length = some ((vs.filter (df A B)).map (pos A B))
  | [], i, _, _, _ => rfl
  | v :: vs, i, hv, hr, hg => by
    obtain ⟨h1, h2⟩ := hv.cons
    have hvA : v < A.length := hr v (by simp)
    have ga : A[v]? = some (A.getD v 0) := by simp [List.getD, hvA]
    have gb : B[v]? = some (B.getD v 0) := by simp [List.getD, (by omega : v < B.length)]
    rw [List.length_cons]
    unfold localVisFix
    rw [h1]
    simp only
    rw [ga, gb, localVisFix_spec hAB vs (i + 1) h2 (fun w hw => hr w (by simp [hw])) (fun w hw => hg w (by simp [hw]))]
    simp only
    by_cases hd : df A B v = true
    · rw [if_pos ((df_ne ga gb).mpr hd), hg v (by simp) hd]
      simp [hd]
    · rw [if_neg (fun h => hd ((df_ne ga gb).mp h))]
      simp [hd]

theorem Prepared.g2l (h : Prepared bop gm A B valA valB s) {v : Nat} (hv : v ∈ differing A B) : s.globalToLocalVi[v]? = some (pos A B v) := (h.maps _ _ (get_pos hv)).2

theorem addUnary_emit (hp : Pairing gm p A B) (h : Prepared bop gm A B valA valB s) {fi : Nat} {t : Term V} (ht : p.terms[fi]? = some t) (hm : FactorMatches gm f t) {v lvi : Nat}
    (hvars : t.vars = [v]) (hl : (differing A B)[lvi]? = some v) :
    ∃ e : Nat × Fn V × List Nat, Emit p A B fi e ∧ ∀ (M : Type) (px : Proxy V M) (m : M), addUnary px s lvi f m = px.addFactor m e.1 e.2.1 e.2.2 := by
  have hmem : v ∈ differing A B := List.mem_of_getElem? hl
  obtain ⟨hvA, hne⟩ := mem_differing.mp hmem
  have hvn : v < p.numLabels.length := by rw [← hp.labA.1]; exact hvA
  have hvB : v < B.length := by rw [← hp.lenAB]; exact hvA
  have hvis : gm.visAt f 0 = some v := by
    have := visFrom hm 0 (by simp [hvars])
    simpa [hvars] using this
  have ga : A[v]? = some (A.getD v 0) := by simp [List.getD, hvA]
  have gb : B[v]? = some (B.getD v 0) := by simp [List.getD, hvB]
  have gn : p.numLabels[v]? = some (p.numLabels.getD v 0) := by simp [List.getD, hvn]
  have ca : gm.callFactor f [A.getD v 0, B.getD v 0] = some (t.table [A.getD v 0]) := by
    have := callFactor_spec hm A [B.getD v 0] (by rw [hp.rep.labels]; exact hp.labA.1) (by rw [hp.rep.labels]; exact hp.labA.2) (by simp [hvars])
    simpa [hvars, restrict, Term.value] using this
  have cb : gm.callFactor f [B.getD v 0] = some (t.table [B.getD v 0]) := by
    have := callFactor_spec hm B [] (by rw [hp.rep.labels]; exact hp.labB.1) (by rw [hp.rep.labels]; exact hp.labB.2) (by simp [hvars])
    simpa [hvars, restrict, Term.value] using this
  refine ⟨(2, ⟨[2], fun c => if c = [0] then t.table [A.getD v 0] else t.table [B.getD v 0]⟩, [lvi]), ⟨by simp, by simp, rfl, t, ht, ?_, ?_⟩, ?_⟩
  · have hd : df A B v = true := (df_mem hp hvn).mpr hmem
    simp [hvars, hd, pos_of_get hl]
  · intro y x hy hx
    have hlt : lvi < y.length := by rw [hy.1]; exact (List.getElem?_eq_some_iff.mp hl).1
    have hyl := hy.2 _ (List.getElem_mem hlt)
    have hyg : y[lvi]? = some y[lvi] := List.getElem?_eq_getElem hlt
    simp only [Term.value, hvars, restrict, List.map_cons, List.map_nil]
    rcases (by omega : y[lvi] = 0 ∨ y[lvi] = 1) with h0 | h1
    · rw [h0] at hyg
      have := hx.zero _ _ hl hyg
      simp [List.getD, hyg, this]
    · rw [h1] at hyg
      have := hx.one _ _ hl hyg
      simp [List.getD, hyg, this]
  · intro M px m
    obtain ⟨m1, m2⟩ := h.maps _ _ hl
    unfold addUnary
    rw [h.model, m1, hvis]
    simp only
    rw [if_pos ⟨trivial, m2⟩, h.argA, h.argB, ga, gb]
    simp only
    rw [ca, cb]

theorem addHigher_emit (hp : Pairing gm p A B) (h : Prepared bop gm A B valA valB s) {fi : Nat} {t : Term V} (ht : p.terms[fi]? = some t) (hm : FactorMatches gm f t) {v : Nat}
    (hv : v ∈ t.vars) (hd : v ∈ differing A B) :
    ∃ e : Nat × Fn V × List Nat, Emit p A B fi e ∧ ∀ (M : Type) (px : Proxy V M) (m : M), addHigher px s f m = px.addFactor m e.1 e.2.1 e.2.2 := by
  have hAB := hp.lenAB
  have hrange : ∀ w ∈ t.vars, w < p.numLabels.length := by intro w hw; rw [← hp.rep.labels]; exact hm.range w hw
  have hrA : ∀ w ∈ t.vars, w < A.length := by intro w hw; rw [hp.labA.1]; exact hrange w hw
  have hdv : df A B v = true := (df_mem hp (hrange v hv)).mpr hd
  have hvis := visFrom hm
  have hsz : f.visSize = t.vars.length := hm.visSize
  have hne : t.vars ≠ [] := by intro h; rw [h] at hv; simp at hv
  have hmem : v ∈ t.vars.filter (df A B) := List.mem_filter.mpr ⟨hv, hdv⟩
  have hcount := countFixed_spec hAB t.vars 0 hvis hrA
  have hshape : ∀ c, Bin (t.vars.filter (df A B)).length c → gm.callFactor f (mixBuf A B t.vars c) = some (t.table (mixBuf A B t.vars c)) := by
    intro c hc
    refine DP.callFactor_at hp.rep.toStores hm ?_ hne
    exact mixBuf_shape hp.labA.1 hp.labB.1 hp.labA.2 hp.labB.2 _ _ hrange hc
  have hpos : ∀ w ∈ t.vars, df A B w = true → s.globalToLocalVi[w]? = some (pos A B w) := fun w hw hdw => h.g2l ((df_mem hp (hrange w hw)).mp hdw)
  have hval : ∀ y x, Bin (differing A B).length y → Fuses A B y x → Bin (t.vars.filter (df A B)).length (restrict y ((t.vars.filter (df A B)).map (pos A B))) ∧
      t.table (mixBuf A B t.vars (restrict y ((t.vars.filter (df A B)).map (pos A B)))) = t.value x := by
    intro y x hy hx
    constructor
    · have := bin_restrict (vs := (t.vars.filter (df A B)).map (pos A B)) hy ?_
      · simpa using this
      · intro w hw
        obtain ⟨u, h1, rfl⟩ := List.mem_map.mp hw
        obtain ⟨h2, h3⟩ := List.mem_filter.mp h1
        exact pos_lt ((df_mem hp (hrange u h2)).mp h3)
    · rw [mixBuf_fuses hAB hx hy _ hrA]
      rfl
  by_cases hfix : (t.vars.filter (fun w => !df A B w)).length = 0
  · have hall : ∀ w ∈ t.vars, df A B w = true := by
      intro w hw
      by_contra hn
      have : w ∈ t.vars.filter (fun w => !df A B w) := List.mem_filter.mpr ⟨hw, by simpa using hn⟩
      rw [List.length_eq_zero_iff.mp hfix] at this
      simp at this
    have hfe : t.vars.filter (df A B) = t.vars := List.filter_eq_self.mpr hall
    rw [hfe] at hshape hval
    have hlv := localVis_spec (A := A) (B := B) (g2l := s.globalToLocalVi) t.vars 0 hvis (fun w hw => hpos w hw (hall w hw))
    have hread : ∀ c, Bin t.vars.length c → fuseView gm f A B c = some (t.table (mixBuf A B t.vars c)) := by
      intro c hc
      unfold fuseView
      rw [hsz, viewBuffer_spec hAB c t.vars 0 c hvis hrA hall hc (by simp)]
      exact hshape c hc
    obtain ⟨fn, e1, e2, e3⟩ := binaryFunction_spec (n := t.vars.length) (read := fuseView gm f A B) (fun c hc => ⟨_, hread c hc⟩)
    refine ⟨(0, fn, t.vars.map (pos A B)), ⟨by simp, by simpa using hne, by simp [e2], t, ht, by rw [hfe], ?_⟩, ?_⟩
    · intro y x hy hx
      obtain ⟨g1, g2⟩ := hval y x hy hx
      have := e3 _ g1
      rw [hread _ g1, g2] at this
      exact (Option.some.inj this).symm
    · intro M px m
      unfold addHigher
      rw [h.model, h.argA, h.argB, hsz, hcount]
      simp only
      rw [if_pos (List.length_pos_of_mem hmem), if_pos hfix, hlv, e1]
  · have hlv := localVisFix_spec hAB (g2l := s.globalToLocalVi) t.vars 0 hvis hrA hpos
    obtain ⟨ps, buf, e1, e2, e3⟩ := fixPositions_spec hAB t.vars 0 hvis hrA
    have hread : ∀ c, Bin ps.length c → fuseViewFix gm f A B ps buf c = some (t.table (mixBuf A B t.vars c)) := by
      intro c hc
      unfold fuseViewFix
      have := e3 [] c rfl hc
      simp only [List.nil_append] at this
      rw [this]
      exact hshape c (by rw [← e2]; exact hc)
    obtain ⟨fn, g1, g2, g3⟩ := binaryFunction_spec (n := ps.length) (read := fuseViewFix gm f A B ps buf) (fun c hc => ⟨_, hread c hc⟩)
    refine ⟨(1, fn, (t.vars.filter (df A B)).map (pos A B)), ⟨by simp, ?_, by simp [g2, e2], t, ht, rfl, ?_⟩, ?_⟩
    · intro hnil
      have := List.map_eq_nil_iff.mp hnil
      rw [this] at hmem
      simp at hmem
    · intro y x hy hx
      obtain ⟨k1, k2⟩ := hval y x hy hx
      rw [← e2] at k1
      have := g3 _ k1
      rw [hread _ k1, k2] at this
      exact (Option.some.inj this).symm
    · intro M px m
      unfold addHigher
      rw [h.model, h.argA, h.argB, hsz, hcount]
      simp only
      rw [if_pos (List.length_pos_of_mem hmem), if_neg hfix, hlv, e1]
      simp only
      rw [g1]

/-! ### The loops -/

/-- All factors are added. -/
def addAll {M : Type} (px : Proxy V M) (m : M) (es : List (Nat × Fn V × List Nat)) : Option M := es.foldlM (fun m e => px.addFactor m e.1 e.2.1 e.2.2) m

theorem addAll_cons {M : Type} (px : Proxy V M) (m : M) (e : Nat × Fn V × List Nat) (es : List (Nat × Fn V × List Nat)) :
    addAll px m (e :: es) = (px.addFactor m e.1 e.2.1 e.2.2).bind (fun m => addAll px m es) := rfl

theorem addAll_append {M : Type} (px : Proxy V M) (m : M) (es es' : List (Nat × Fn V × List Nat)) :
    addAll px m (es ++ es') = (addAll px m es).bind (fun m => addAll px m es') := by
  unfold addAll
  rw [List.foldlM_append]
  rfl

/-- The term has one variable. -/
def Unary (p : Problem V) (fi : Nat) : Prop := ∃ t, p.terms[fi]? = some t ∧ t.vars.length = 1

theorem mentions_iff {terms : List (Term V)} {v j : Nat} : mentions terms v j = true ↔ ∃ t, terms[j]? = some t ∧ v ∈ t.vars := by
  unfold mentions
  cases terms[j]? <;> simp

theorem factor_of_term (hp : Pairing gm p A B) {fi : Nat} {t : Term V} (ht : p.terms[fi]? = some t) : ∃ fr, gm.factors[fi]? = some fr ∧ FactorMatches gm fr t := by
  have hlen := hp.rep.factors.length_eq
  obtain ⟨hlt, rfl⟩ := List.getElem?_eq_some_iff.mp ht
  exact ⟨_, List.getElem?_eq_getElem (by omega), hp.rep.factors.get (i := fi) (by omega) hlt⟩

theorem factorLoop_spec (hp : Pairing gm p A B) (h : Prepared bop gm A B valA valB s) {v lvi : Nat} (hl : (differing A B)[lvi]? = some v) :
    ∀ (fis fs added : List Nat), fis.Nodup → (∀ fi ∈ fis, mentions p.terms v fi = true) → (∀ fi ∈ fis, Unary p fi → fi ∉ fs) → (∀ fi, ¬ Unary p fi → (fi ∈ added ↔ fi ∈ fs)) →
    ∃ es added', List.Forall₂ (Emit p A B) (fis.filter (fun fi => decide (fi ∉ fs))) es ∧ (∀ fi, ¬ Unary p fi → (fi ∈ added' ↔ fi ∈ fs ∨ fi ∈ fis)) ∧
      ∀ (M : Type) (px : Proxy V M) (m : M), factorLoop px s lvi fis m added = (addAll px m es).map (fun m => (m, added'))
  | [], fs, added, _, _, _, ha => ⟨[], added, List.Forall₂.nil, by simpa using ha, by intro M px m; rfl⟩
  | fi :: fis, fs, added, hnd, hmen, hun, ha => by
    obtain ⟨hnin, hnd'⟩ := List.nodup_cons.mp hnd
    obtain ⟨t, ht, hv⟩ := mentions_iff.mp (hmen fi (by simp))
    obtain ⟨fr, hfr, hm⟩ := factor_of_term hp ht
    have hmen' : ∀ fi ∈ fis, mentions p.terms v fi = true := fun x hx => hmen x (by simp [hx])
    have hun' : ∀ x ∈ fis, Unary p x → x ∉ fs := fun x hx => hun x (by simp [hx])
    have hdv : v ∈ differing A B := List.mem_of_getElem? hl
    have hun2 : ∀ x ∈ fis, Unary p x → x ∉ fs ++ [fi] := by
      intro x hx hu
      simp only [List.mem_append, List.mem_singleton, not_or]
      exact ⟨hun' x hx hu, by rintro rfl; exact hnin hx⟩
    have hfilt : fis.filter (fun x => decide (x ∉ fs ++ [fi])) = fis.filter (fun x => decide (x ∉ fs)) := by
      apply List.filter_congr
      intro x hx
      have : x ≠ fi := by rintro rfl; exact hnin hx
      simp [this]
    by_cases hone : fr.visSize = 1
    · have hu : Unary p fi := ⟨t, ht, by rw [← hm.visSize]; exact hone⟩
      have hvars : t.vars = [v] := by
        obtain ⟨w, hw⟩ := List.length_eq_one_iff.mp (by rw [← hm.visSize]; exact hone : t.vars.length = 1)
        rw [hw] at hv ⊢
        simp only [List.mem_singleton] at hv
        rw [hv]
      obtain ⟨e, e1, e2⟩ := addUnary_emit hp h ht hm hvars hl
      obtain ⟨es, added', g1, g2, g3⟩ := factorLoop_spec hp h hl fis (fs ++ [fi]) added hnd' hmen' hun2 (by
        intro x hx
        rw [ha x hx, List.mem_append, List.mem_singleton]
        exact ⟨Or.inl, fun h => h.elim id (by rintro rfl; exact absurd hu hx)⟩)
      rw [hfilt] at g1
      refine ⟨e :: es, added', ?_, ?_, ?_⟩
      · rw [List.filter_cons_of_pos (by simpa using hun fi (by simp) hu)]
        exact List.Forall₂.cons e1 g1
      · intro x hx
        rw [g2 x hx]
        simp [or_assoc]
      · intro M px m
        unfold factorLoop
        rw [h.model, hfr]
        simp only
        rw [if_pos hone, e2, addAll_cons]
        cases px.addFactor m e.1 e.2.1 e.2.2 with
        | none => rfl
        | some m' => exact g3 M px m'
    · have hu : ¬ Unary p fi := by
        rintro ⟨t', ht', hl'⟩
        rw [ht] at ht'
        cases ht'
        exact hone (by rw [hm.visSize]; exact hl')
      by_cases hin : fi ∈ added
      · have hfs : fi ∈ fs := (ha fi hu).mp hin
        obtain ⟨es, added', g1, g2, g3⟩ := factorLoop_spec hp h hl fis fs added hnd' hmen' hun' ha
        refine ⟨es, added', ?_, ?_, ?_⟩
        · rw [List.filter_cons_of_neg (by simpa using hfs)]
          exact g1
        · intro x hx
          rw [g2 x hx, List.mem_cons]
          constructor
          · rintro (h | h)
            · exact Or.inl h
            · exact Or.inr (Or.inr h)
          · rintro (h | rfl | h)
            · exact Or.inl h
            · exact Or.inl hfs
            · exact Or.inr h
        · intro M px m
          unfold factorLoop
          rw [h.model, hfr]
          simp only
          rw [if_neg hone, if_neg (by simpa using hin)]
          exact g3 M px m
      · have hfs : fi ∉ fs := fun h' => hin ((ha fi hu).mpr h')
        obtain ⟨e, e1, e2⟩ := addHigher_emit hp h ht hm hv hdv
        obtain ⟨es, added', g1, g2, g3⟩ := factorLoop_spec hp h hl fis (fs ++ [fi]) (added ++ [fi]) hnd' hmen' hun2 (by
          intro x hx
          rw [List.mem_append, List.mem_append, ha x hx])
        rw [hfilt] at g1
        refine ⟨e :: es, added', ?_, ?_, ?_⟩
        · rw [List.filter_cons_of_pos (by simpa using hfs)]
          exact List.Forall₂.cons e1 g1
        · intro x hx
          rw [g2 x hx]
          simp [or_assoc]
        · intro M px m
          unfold factorLoop
          rw [h.model, hfr]
          simp only
          rw [if_neg hone, if_pos hin, e2, addAll_cons]
          cases px.addFactor m e.1 e.2.1 e.2.2 with
          | none => rfl
          | some m' => exact g3 M px m'

theorem variableLoop_spec (hp : Pairing gm p A B) (h : Prepared bop gm A B valA valB s) : ∀ (k lvi : Nat) (fs added : List Nat), lvi + k = (differing A B).length → fs.Nodup →
    (∀ fi, fi ∈ fs ↔ ∃ v ∈ (differing A B).take lvi, mentions p.terms v fi = true) → (∀ fi, ¬ Unary p fi → (fi ∈ added ↔ fi ∈ fs)) →
    ∃ es fs', List.Forall₂ (Emit p A B) fs' es ∧ (fs ++ fs').Nodup ∧ (∀ fi, fi ∈ fs ++ fs' ↔ ∃ v ∈ differing A B, mentions p.terms v fi = true) ∧
      ∀ (M : Type) (px : Proxy V M) (m : M), variableLoop px s lvi k m added = addAll px m es
  | 0, lvi, fs, added, hk, hnd, hfs, ha => by
    refine ⟨[], [], List.Forall₂.nil, by simpa using hnd, ?_, by intro M px m; rfl⟩
    rw [List.take_of_length_le (by omega)] at hfs
    simpa using hfs
  | k + 1, lvi, fs, added, hk, hnd, hfs, ha => by
    have hlt : lvi < (differing A B).length := by omega
    have hl : (differing A B)[lvi]? = some (differing A B)[lvi] := List.getElem?_eq_getElem hlt
    generalize hv : (differing A B)[lvi] = v at hl
    have hDnd : (differing A B).Nodup := (differing_sorted A B).imp (fun h => Nat.ne_of_lt h)
    have htake : (differing A B).take (lvi + 1) = (differing A B).take lvi ++ [v] := by rw [List.take_succ_eq_append_getElem hlt, hv]
    have hvnot : v ∉ (differing A B).take lvi := by
      intro hmem
      have : ((differing A B).take (lvi + 1)).Nodup := hDnd.sublist (List.take_sublist _ _)
      rw [htake, List.nodup_append] at this
      exact this.2.2 v hmem v (by simp) rfl
    have hvn : v < gm.numLabels.length := by
      rw [hp.rep.labels, ← hp.labA.1]
      exact (mem_differing.mp (List.mem_of_getElem? hl)).1
    have hadj := hp.rep.adj v hvn
    set fis := (List.range p.terms.length).filter (mentions p.terms v) with hfis
    obtain ⟨es, added', e1, e2, e3⟩ := factorLoop_spec hp h hl fis fs added (List.nodup_range.filter _) (by simp [hfis]) (by
      intro fi hfi hu hin
      obtain ⟨w, hw, hmen⟩ := (hfs fi).mp hin
      obtain ⟨t, ht, hone⟩ := hu
      obtain ⟨t1, ht1, hw1⟩ := mentions_iff.mp hmen
      obtain ⟨t2, ht2, hv2⟩ := mentions_iff.mp (List.mem_filter.mp hfi).2
      rw [ht] at ht1 ht2
      cases ht1; cases ht2
      obtain ⟨u, hu⟩ := List.length_eq_one_iff.mp hone
      rw [hu, List.mem_singleton] at hw1 hv2
      rw [hw1, ← hv2] at hw
      exact hvnot hw) ha
    have hmemfis : ∀ fi, fi ∈ fis ↔ mentions p.terms v fi = true := by
      intro fi
      rw [hfis, List.mem_filter, List.mem_range]
      exact ⟨fun h => h.2, fun h => ⟨mentions_lt h, h⟩⟩
    have hnd2 : (fs ++ fis.filter (fun fi => decide (fi ∉ fs))).Nodup := by
      rw [List.nodup_append]
      refine ⟨hnd, (List.nodup_range.filter _).filter _, ?_⟩
      rintro a ha' b hb rfl
      have := (List.mem_filter.mp hb).2
      simp at this
      exact this ha'
    have hmem2 : ∀ fi, fi ∈ fs ++ fis.filter (fun fi => decide (fi ∉ fs)) ↔ fi ∈ fs ∨ fi ∈ fis := by
      intro fi
      rw [List.mem_append, List.mem_filter]
      constructor
      · rintro (h | h)
        · exact Or.inl h
        · exact Or.inr h.1
      · rintro (h | h)
        · exact Or.inl h
        · by_cases hf : fi ∈ fs
          · exact Or.inl hf
          · exact Or.inr ⟨h, by simpa using hf⟩
    obtain ⟨es', fs', g1, g2, g3, g4⟩ := variableLoop_spec hp h k (lvi + 1) (fs ++ fis.filter (fun fi => decide (fi ∉ fs))) added' (by omega) hnd2 (by
      intro fi
      rw [hmem2, hfs, hmemfis, htake]
      simp only [List.mem_append, List.mem_singleton]
      constructor
      · rintro (⟨w, h1, h2⟩ | h)
        · exact ⟨w, Or.inl h1, h2⟩
        · exact ⟨v, Or.inr rfl, h⟩
      · rintro ⟨w, h1 | rfl, h2⟩
        · exact Or.inl ⟨w, h1, h2⟩
        · exact Or.inr h2) (by
      intro fi hfi
      rw [e2 fi hfi, hmem2])
    refine ⟨es ++ es', fis.filter (fun fi => decide (fi ∉ fs)) ++ fs', List.rel_append e1 g1, by rw [← List.append_assoc]; exact g2, ?_, ?_⟩
    · intro fi
      rw [← List.append_assoc]
      exact g3 fi
    · intro M px m
      unfold variableLoop
      rw [(h.maps _ _ hl).1]
      simp only
      rw [GM.factorsOfVariable, h.model, hadj]
      simp only
      rw [e3, addAll_append]
      cases addAll px m es with
      | none => rfl
      | some m' => exact g4 M px m'

theorem fillSubModel_spec (hp : Pairing gm p A B) (h : Prepared bop gm A B valA valB s) (hne : differing A B ≠ []) :
    ∃ es fs, List.Forall₂ (Emit p A B) fs es ∧ fs.Nodup ∧ (∀ fi, fi ∈ fs ↔ ∃ v ∈ differing A B, mentions p.terms v fi = true) ∧
      ∀ (M : Type) (px : Proxy V M), fillSubModel px s = addAll px (px.create (differing A B).length) es := by
  obtain ⟨es, fs, h1, h2, h3, h4⟩ := variableLoop_spec hp h (differing A B).length 0 [] [] (by omega) List.nodup_nil (by simp) (by simp)
  simp only [List.nil_append] at h2 h3
  refine ⟨es, fs, h1, h2, h3, ?_⟩
  intro M px
  unfold fillSubModel
  rw [h.count, if_pos (List.length_pos_of_ne_nil hne), h4]

end OpenGM.Fusion
