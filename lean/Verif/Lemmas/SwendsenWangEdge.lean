import Verif.Model.SwendsenWang
import Verif.Spec.SwendsenWang
import Verif.Lemmas.AStarConstruct
import Verif.Lemmas.Movemaker
import Verif.Props.FactorOps
import Verif.Props.FactorGraph
/-
Lemmas for the probabilities of edges.
-/
namespace OpenGM.SwendsenWang
open Spec FactorOps Walkers Marray
variable {V F : Type} {gm : GM V} {p : Problem V}

theorem term_of_factor (h : Stores gm p) {f : Nat} (hf : f < p.terms.length) : ∃ fac t, gm.factors[f]? = some fac ∧ p.terms[f]? = some t ∧ FactorMatches gm fac t := by
  have hl := h.factors.length_eq
  refine ⟨gm.factors[f]'(by omega), p.terms[f], List.getElem?_eq_getElem (by omega), List.getElem?_eq_getElem hf, ?_⟩
  exact h.factors.get (by omega) hf

theorem collectFactors_spec (h : Stores gm p) : ∀ (fs : List Nat) (s : List Nat × List Nat), (∀ f ∈ fs, f < p.terms.length) → s.1.Pairwise (· < ·) → s.2.Pairwise (· < ·) →
    ∃ s', collectFactors gm fs s = some s' ∧ s'.1.Pairwise (· < ·) ∧ s'.2.Pairwise (· < ·) ∧ (∀ f, f ∈ s'.1 ↔ f ∈ s.1 ∨ f ∈ fs) ∧ ∀ u, u ∈ s'.2 ↔ u ∈ s.2 ∨ ∃ f ∈ fs, mentions p.terms u f = true
  | [], s, _, h1, h2 => ⟨s, rfl, h1, h2, by simp, by simp⟩
  | f :: fs, s, hf, h1, h2 => by
    obtain ⟨fac, t, e1, e2, e3⟩ := term_of_factor h (hf f (by simp))
    have a1 := Movemaker.setUnion_spec s.1 [f] h1
    have a2 := Movemaker.setUnion_spec s.2 (gm.scope fac) h2
    obtain ⟨s', b1, b2, b3, b4, b5⟩ := collectFactors_spec h fs (Movemaker.setUnion s.1 [f], Movemaker.setUnion s.2 (gm.scope fac)) (fun f' hf' => hf f' (by simp [hf'])) a1.1 a2.1
    refine ⟨s', by simp only [collectFactors, e1, b1], b2, b3, ?_, ?_⟩
    · intro f'
      rw [b4, a1.2]
      simp only [List.mem_singleton, List.mem_cons]
      tauto
    · intro u
      rw [b5, a2.2, e3.scope]
      have : mentions p.terms u f = decide (u ∈ t.vars) := by unfold mentions; rw [e2]
      constructor
      · rintro ((h | h) | ⟨f', hf', h⟩)
        · exact Or.inr ⟨f, by simp, by rw [this]; simpa using h⟩
        · exact Or.inl h
        · exact Or.inr ⟨f', by simp [hf'], h⟩
      · rintro (h | ⟨f', hf', h⟩)
        · exact Or.inl (Or.inr h)
        · rcases List.mem_cons.mp hf' with rfl | hf'
          · rw [this] at h; exact Or.inl (Or.inl (by simpa using h))
          · exact Or.inr ⟨f', hf', h⟩

theorem eq_of_sorted_mem {l l' : List Nat} (h : l.Pairwise (· < ·)) (h' : l'.Pairwise (· < ·)) (hm : ∀ x, x ∈ l ↔ x ∈ l') : l = l' := by
  have hp : l.Perm l' := (List.perm_ext_iff_of_nodup (h.imp (fun h => Nat.ne_of_lt h)) (h'.imp (fun h => Nat.ne_of_lt h))).mpr hm
  exact List.Perm.eq_of_pairwise (fun a b _ _ h1 h2 => absurd h1 (by omega)) h h' hp

/-- The indices of the near terms. -/
def near (p : Problem V) (v w : Nat) : List Nat := (List.range p.terms.length).filter (fun f => mentions p.terms v f || mentions p.terms w f)

theorem mentions_lt {u f : Nat} (h : mentions p.terms u f = true) : f < p.terms.length := by
  unfold mentions at h
  by_contra hn
  rw [List.getElem?_eq_none (by omega)] at h
  simp at h

theorem mem_near {v w f : Nat} : f ∈ near p v w ↔ mentions p.terms v f = true ∨ mentions p.terms w f = true := by
  unfold near
  rw [List.mem_filter, List.mem_range, Bool.or_eq_true]
  constructor
  · exact fun h => h.2
  · intro h
    refine ⟨?_, h⟩
    rcases h with h | h <;> exact mentions_lt h

theorem mentions_iff {u f : Nat} : mentions p.terms u f = true ↔ ∃ t, p.terms[f]? = some t ∧ u ∈ t.vars := by
  unfold mentions
  cases p.terms[f]? with
  | none => simp
  | some t => simp

theorem mem_nearTerms {v w : Nat} {t : Term V} : t ∈ p.nearTerms v w ↔ t ∈ p.terms ∧ (v ∈ t.vars ∨ w ∈ t.vars) := by
  unfold Problem.nearTerms
  rw [List.mem_filter]; simp

theorem near_terms (p : Problem V) (v w : Nat) : (near p v w).filterMap (fun f => p.terms[f]?) = p.nearTerms v w := by
  unfold near Problem.nearTerms
  have key : ∀ (l : List (Term V)) (q : Term V → Bool), ((List.range l.length).filter (fun f => match l[f]? with | some t => q t | none => false)).filterMap (fun f => l[f]?) = l.filter q := by
    intro l q
    induction l using List.reverseRecOn with
    | nil => rfl
    | append_singleton l a ih =>
      rw [List.length_append, List.length_singleton, List.range_succ, List.filter_append, List.filterMap_append, List.filter_append]
      congr 1
      · rw [← ih]
        have : (List.range l.length).filter (fun f => match (l ++ [a])[f]? with | some t => q t | none => false) = (List.range l.length).filter (fun f => match l[f]? with | some t => q t | none => false) := by
          apply List.filter_congr
          intro f hf
          rw [List.getElem?_append_left (List.mem_range.mp hf)]
        rw [this]
        apply List.filterMap_congr
        intro f hf
        rw [List.getElem?_append_left (List.mem_range.mp (List.mem_filter.mp hf).1)]
      · simp only [List.filter_cons, List.filter_nil]
        rw [List.getElem?_append_right (by omega)]
        simp only [Nat.sub_self, List.getElem?_cons_zero]
        cases hq : q a <;> simp
  rw [← key]
  congr 1
  apply List.filter_congr
  intro f hf
  unfold mentions
  cases p.terms[f]? with
  | none => rfl
  | some t => simp

theorem collectConnected_spec (h : Represents gm p) {v w : Nat} (hv : v < p.numLabels.length) (hw : w < p.numLabels.length) :
    collectConnected gm [v, w] ([], []) = some (near p v w, p.nearVars v w) := by
  have av := h.adj v (by rw [h.labels]; exact hv)
  have aw := h.adj w (by rw [h.labels]; exact hw)
  have hr : ∀ v f, f ∈ (List.range p.terms.length).filter (mentions p.terms v) ↔ mentions p.terms v f = true := by
    intro v f
    rw [List.mem_filter, List.mem_range]
    exact ⟨fun h => h.2, fun h => ⟨mentions_lt h, h⟩⟩
  obtain ⟨s1, a1, a2, a3, a4, a5⟩ := collectFactors_spec h.toStores ((List.range p.terms.length).filter (mentions p.terms v)) ([], []) (fun f hf => mentions_lt ((hr v f).mp hf)) (by simp) (by simp)
  obtain ⟨s2, b1, b2, b3, b4, b5⟩ := collectFactors_spec h.toStores ((List.range p.terms.length).filter (mentions p.terms w)) s1 (fun f hf => mentions_lt ((hr w f).mp hf)) a2 a3
  simp only [collectConnected, av, a1, aw, b1]
  have e1 : s2.1 = near p v w := by
    refine eq_of_sorted_mem b2 (Movemaker.sorted_range_filter _ _) ?_
    intro f
    rw [b4, a4, hr, hr, mem_near]
    simp
  have e2 : s2.2 = p.nearVars v w := by
    refine eq_of_sorted_mem b3 (Movemaker.sorted_range_filter _ _) ?_
    intro u
    unfold Problem.nearVars
    rw [b5, a5, List.mem_filter (p := fun u => (p.nearTerms v w).any (fun t => decide (u ∈ t.vars))), List.mem_range, List.any_eq_true]
    constructor
    · intro hh
      obtain ⟨f, hf, hm⟩ : ∃ f, f ∈ near p v w ∧ mentions p.terms u f = true := by
        rcases hh with (hh | ⟨f, hf, hm⟩) | ⟨f, hf, hm⟩
        · simp at hh
        · exact ⟨f, mem_near.mpr (Or.inl ((hr v f).mp hf)), hm⟩
        · exact ⟨f, mem_near.mpr (Or.inr ((hr w f).mp hf)), hm⟩
      obtain ⟨t, ht, hu⟩ := mentions_iff.mp hm
      obtain ⟨fac, t', e1, e2, e3⟩ := term_of_factor h.toStores (mentions_lt hm)
      rw [ht] at e2; cases e2
      refine ⟨by have := e3.range u hu; rwa [h.labels] at this, t, ?_, by simpa using hu⟩
      rw [mem_nearTerms]
      refine ⟨List.mem_of_getElem? ht, ?_⟩
      rcases mem_near.mp hf with h1 | h1
      · obtain ⟨t', ht', hu'⟩ := mentions_iff.mp h1
        rw [ht] at ht'; cases ht'; exact Or.inl hu'
      · obtain ⟨t', ht', hu'⟩ := mentions_iff.mp h1
        rw [ht] at ht'; cases ht'; exact Or.inr hu'
    · rintro ⟨_, t, ht, hu⟩
      obtain ⟨ht, hvw⟩ := mem_nearTerms.mp ht
      obtain ⟨f, hf⟩ := List.mem_iff_getElem?.mp ht
      have hm := mentions_iff.mpr ⟨t, hf, by simpa using hu⟩
      rcases hvw with h1 | h1
      · exact Or.inl (Or.inr ⟨f, (hr v f).mpr (mentions_iff.mpr ⟨t, hf, h1⟩), hm⟩)
      · exact Or.inr ⟨f, (hr w f).mpr (mentions_iff.mpr ⟨t, hf, h1⟩), hm⟩
  rw [← e1, ← e2]

theorem operateAll_spec (h : Stores gm p) (hpos : ∀ n ∈ p.numLabels, 0 < n) (q : Ops V F) (vars : List Nat) (hvs : vars.Pairwise (· < ·)) (hne : vars ≠ []) : ∀ (fs : List Nat) (L : IFactor V) (f : (Nat → Nat) → V),
    (∀ i ∈ fs, ∃ t, p.terms[i]? = some t ∧ t.vars ≠ [] ∧ ∀ u ∈ t.vars, u ∈ vars) → L.vars = vars → Built q.zero (fun v => gm.numLabels.getD v 0) L f →
    ∃ L', operateAll q gm fs L = some L' ∧ L'.vars = vars ∧ Built q.zero (fun v => gm.numLabels.getD v 0) L' (fun x => (fs.filterMap (fun i => p.terms[i]?)).foldl (fun a t => q.o.op a (t.table (t.vars.map x))) (f x))
  | [], L, f, _, h1, h2 => ⟨L, rfl, h1, h2⟩
  | i :: fs, L, f, hi, h1, h2 => by
    obtain ⟨t, ht, htne, hsub⟩ := hi i (by simp)
    obtain ⟨fac, t', e1, e2, e3⟩ := term_of_factor h (List.getElem?_eq_some_iff.mp ht).1
    rw [ht] at e2; cases e2
    have hp' : ∀ v ∈ t.vars, 0 < gm.numLabels.getD v 0 := by
      intro v hv
      have := e3.range v hv
      rw [List.getD_eq_getElem?_getD, List.getElem?_eq_getElem this]
      exact hpos _ (by rw [← h.labels]; exact List.getElem_mem this)
    have hval := AStar.factorFn_value e3 htne
    obtain ⟨c, vic, c1, c2, c3, c4⟩ := C24_inplace_partial q.o.op h2 hval e3.sorted hp' (Or.inr htne)
    have hvic : vic = vars := by
      refine eq_of_sorted_mem c2 hvs ?_
      intro u
      rw [c3, h1]
      exact ⟨fun h => h.elim id (hsub u), Or.inl⟩
    have hb := Built.inplace q.o.op h2 hval e3.sorted hp' (Or.inr htne) c1
    obtain ⟨L', d1, d2, d3⟩ := operateAll_spec h hpos q vars hvs hne fs ⟨vic, c⟩ _ (fun j hj => hi j (by simp [hj])) hvic hb
    refine ⟨L', ?_, d2, ?_⟩
    · simp only [operateAll, e1]
      rw [e3.scope, c1]
      exact d1
    · simp only [List.filterMap_cons, ht, List.foldl_cons]
      exact d3

theorem positions_spec {v w : Nat} (hvw : v ≠ w) {vars : List Nat} (hn : vars.Nodup) (hv : v ∈ vars) (hw : w ∈ vars) : vars[(positions v w vars).1]? = some v ∧ vars[(positions v w vars).2]? = some w := by
  have key : ∀ (l : List (Nat × Nat)) (i : Nat × Nat), (∀ e ∈ l, vars[e.2]? = some e.1) → (v ∈ l.map Prod.fst ∨ vars[i.1]? = some v) → (w ∈ l.map Prod.fst ∨ vars[i.2]? = some w) →
      let r := l.foldl (fun i e => if e.1 = v then (e.2, i.2) else if e.1 = w then (i.1, e.2) else i) i
      vars[r.1]? = some v ∧ vars[r.2]? = some w := by
    intro l
    induction l with
    | nil => intro i _ h1 h2; simp at h1 h2; exact ⟨h1, h2⟩
    | cons e l ih =>
      intro i he h1 h2
      simp only [List.foldl_cons]
      apply ih
      · exact fun e' he' => he e' (by simp [he'])
      · by_cases hev : e.1 = v
        · right; rw [if_pos hev]; rw [← hev]; exact he e (by simp)
        · rw [if_neg hev]
          rcases h1 with h1 | h1
          · left
            rw [List.map_cons, List.mem_cons] at h1
            exact h1.resolve_left (fun h => hev h.symm)
          · right; split <;> exact h1
      · by_cases hev : e.1 = v
        · rw [if_pos hev]
          rcases h2 with h2 | h2
          · left
            rw [List.map_cons, List.mem_cons] at h2
            exact h2.resolve_left (fun h => hvw (hev.symm.trans h.symm))
          · right; exact h2
        · rw [if_neg hev]
          by_cases hew : e.1 = w
          · right; rw [if_pos hew, ← hew]; exact he e (by simp)
          · rw [if_neg hew]
            rcases h2 with h2 | h2
            · left
              rw [List.map_cons, List.mem_cons] at h2
              exact h2.resolve_left (fun h => hew h.symm)
            · right; exact h2
  have hfst : (vars.zip (List.range vars.length)).map Prod.fst = vars := by rw [List.map_fst_zip (by simp)]
  refine key _ (0, 0) ?_ (Or.inl (by rw [hfst]; exact hv)) (Or.inl (by rw [hfst]; exact hw))
  intro e he
  obtain ⟨i, hi⟩ := List.mem_iff_getElem?.mp he
  rw [List.getElem?_zip_eq_some] at hi
  obtain ⟨h1, h2⟩ := hi
  obtain ⟨h3, h4⟩ := List.getElem?_eq_some_iff.mp h2
  rw [List.getElem_range] at h4
  rw [← h4]; exact h1

section
variable [Field F] [LinearOrder F]

theorem foldl_pair (l : List (List Nat)) (f g : List Nat → F) : ∀ a : F × F, l.foldl (fun acc c => (acc.1 + f c, acc.2 + g c)) a = (a.1 + (l.map f).sum, a.2 + (l.map g).sum) := by
  induction l with
  | nil => intro a; simp
  | cons c l ih => intro a; rw [List.foldl_cons, ih]; simp [add_assoc]

theorem sums_spec (q : Ops V F) {v w : Nat} (hvw : v ≠ w) {Lb : Nat → Nat} {L : IFactor V} {f : (Nat → Nat) → V} (hL : Built q.zero Lb L f) (hv : v ∈ L.vars) (hw : w ∈ L.vars) :
    sums q L (positions v w L.vars) = some (
      ((allTuples (L.vars.map Lb)).map (fun c => if decide (override (fun _ => 0) L.vars c v = override (fun _ => 0) L.vars c w) then q.convert (f (override (fun _ => 0) L.vars c)) else 0)).sum,
      ((allTuples (L.vars.map Lb)).map (fun c => if decide (override (fun _ => 0) L.vars c v ≠ override (fun _ => 0) L.vars c w) then q.convert (f (override (fun _ => 0) L.vars c)) else 0)).sum) := by
  have i := hL.isFactor
  have hnd := nodup_of_sorted i.sorted
  have hp := positions_spec hvw hnd hv hw
  have hsize : L.fn.geometry.size = (allTuples (L.vars.map Lb)).length := by
    rw [length_allTuples, i.ok.1, Arr.dense_size]
  unfold sums
  rw [i.value.shape, hsize]
  rw [accLoop_visits _ _ _ (fun c => if override (fun _ => 0) L.vars c v = override (fun _ => 0) L.vars c w then (q.convert (f (override (fun _ => 0) L.vars c)), (0 : F)) else (0, q.convert (f (override (fun _ => 0) L.vars c))))
    _ _ _ (visits_shapeWalker (positive_map i.positive))]
  · refine congrArg some ?_
    have := foldl_pair (F := F) (allTuples (L.vars.map Lb)) (fun c => if decide (override (fun _ => 0) L.vars c v = override (fun _ => 0) L.vars c w) then q.convert (f (override (fun _ => 0) L.vars c)) else 0)
      (fun c => if decide (override (fun _ => 0) L.vars c v ≠ override (fun _ => 0) L.vars c w) then q.convert (f (override (fun _ => 0) L.vars c)) else 0) (0, 0)
    rw [zero_add, zero_add] at this
    rw [← this]
    congr 1
    funext acc c
    split <;> simp_all
  · intro c hc
    have hin := (mem_allTuples _ _).mp hc
    have h1 := labelingOf_spec hnd hin
    have h2 := hasValue_read i.value h1.2
    rw [h1.1] at h2
    rw [h2]
    have hx : ∀ u ∈ L.vars, override (fun _ => 0) L.vars c u = labelingOf L.vars c u := by
      intro u hu
      conv_lhs => rw [← h1.1, override_map]
      rw [if_pos hu]
    have hf : f (labelingOf L.vars c) = f (override (fun _ => 0) L.vars c) := hasValue_congr i.value h1.2 (fun u hu => (hx u hu).symm)
    have c1 : c[(positions v w L.vars).1]? = some (override (fun _ => 0) L.vars c v) := by
      rw [hx v hv]
      conv_lhs => rw [← h1.1]
      rw [List.getElem?_map, hp.1]; rfl
    have c2 : c[(positions v w L.vars).2]? = some (override (fun _ => 0) L.vars c w) := by
      rw [hx w hw]
      conv_lhs => rw [← h1.1]
      rw [List.getElem?_map, hp.2]; rfl
    rw [c1, c2, hf]
    simp only
    split <;> rfl

theorem edgeProbability_spec (h : Represents gm p) (hpos : ∀ n ∈ p.numLabels, 0 < n) (q : Ops V F) (lowest : F) {v w : Nat} (ha : p.adjacent v w = true) (hv : v < p.numLabels.length) (hw : w < p.numLabels.length) :
    edgeProbability q lowest gm v w =
      let e := p.nearSum q.o.toOperation q.convert v w (fun a b => decide (a = b))
      let u := p.nearSum q.o.toOperation q.convert v w (fun a b => decide (a ≠ b))
      if e + u = 0 then .throw () else if e / (e + u) < lowest ∨ u / (e + u) < lowest then .throw () else .ok (u / (e + u)) () := by
  simp only [Problem.adjacent, Bool.and_eq_true, decide_eq_true_eq, List.any_eq_true] at ha
  obtain ⟨hvw, t, ht, htv, htw⟩ := ha
  have htn : t ∈ p.nearTerms v w := mem_nearTerms.mpr ⟨ht, Or.inl htv⟩
  have hvn : v ∈ p.nearVars v w := by
    unfold Problem.nearVars
    rw [List.mem_filter, List.mem_range, List.any_eq_true]
    exact ⟨hv, t, htn, by simpa using htv⟩
  have hwn : w ∈ p.nearVars v w := by
    unfold Problem.nearVars
    rw [List.mem_filter, List.mem_range, List.any_eq_true]
    exact ⟨hw, t, htn, by simpa using htw⟩
  have hsorted : (p.nearVars v w).Pairwise (· < ·) := Movemaker.sorted_range_filter _ _
  have hrange : ∀ u ∈ p.nearVars v w, u < gm.numLabels.length := by
    intro u hu
    unfold Problem.nearVars at hu
    rw [List.mem_filter, List.mem_range] at hu
    rw [h.labels]; exact hu.1
  have hmap : (p.nearVars v w).mapM (fun v => gm.numLabels[v]?) = some ((p.nearVars v w).map (fun v => gm.numLabels.getD v 0)) := by
    have := Movemaker.mapM_getElem (p.nearVars v w) gm.numLabels hrange
    rw [this]; rfl
  have hpn : ∀ u ∈ p.nearVars v w, 0 < gm.numLabels.getD u 0 := by
    intro u hu
    have := hrange u hu
    rw [List.getD_eq_getElem?_getD, List.getElem?_eq_getElem this]
    exact hpos _ (by rw [← h.labels]; exact List.getElem_mem this)
  have hne : p.nearVars v w ≠ [] := List.ne_nil_of_mem hvn
  obtain ⟨L0, c1, c2, c3⟩ := C56_constant_partial q.zero q.o.neutral (L := fun v => gm.numLabels.getD v 0) hne
  obtain ⟨L1, d1, d2, d3⟩ := operateAll_spec h.toStores hpos q _ hsorted hne (near p v w) L0 (fun _ => q.o.neutral) (by
    intro i hi
    rcases mem_near.mp hi with hm | hm
    all_goals
      obtain ⟨t', ht', hu'⟩ := mentions_iff.mp hm
      refine ⟨t', ht', List.ne_nil_of_mem hu', ?_⟩
      intro u hu
      obtain ⟨fac, t2, e1, e2, e3⟩ := term_of_factor h.toStores (List.getElem?_eq_some_iff.mp ht').1
      rw [ht'] at e2; cases e2
      unfold Problem.nearVars
      rw [List.mem_filter, List.mem_range, List.any_eq_true, ← h.labels]
      refine ⟨e3.range u hu, t', mem_nearTerms.mpr ⟨List.mem_of_getElem? ht', ?_⟩, by simpa using hu⟩
    · exact Or.inl hu'
    · exact Or.inr hu') c2 (.constant hne hsorted hpn c1)
  have hs := sums_spec q hvw d3 (by rw [d2]; exact hvn) (by rw [d2]; exact hwn)
  unfold edgeProbability
  rw [collectConnected_spec h hv hw]
  simp only
  rw [hmap]
  simp only
  rw [c1, Option.bind_some, d1]
  simp only
  rw [hs]
  simp only [d2]
  have hq : ∀ test : Nat → Nat → Bool, ((allTuples ((p.nearVars v w).map (fun v => gm.numLabels.getD v 0))).map (fun c => if test (override (fun _ => 0) (p.nearVars v w) c v) (override (fun _ => 0) (p.nearVars v w) c w) then
      q.convert (((near p v w).filterMap (fun i => p.terms[i]?)).foldl (fun a t => q.o.op a (t.table (t.vars.map (override (fun _ => 0) (p.nearVars v w) c)))) q.o.neutral) else 0)).sum = p.nearSum q.o.toOperation q.convert v w test := by
    intro test
    unfold Problem.nearSum Problem.nearValue
    rw [near_terms, h.labels]
  rw [hq (fun a b => decide (a = b)), hq (fun a b => decide (a ≠ b))]

end

end OpenGM.SwendsenWang
