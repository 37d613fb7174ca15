import Verif.Lemmas.DPInfer
/-
`arg` of DynamicProgramming follows the recorded states.
-/
namespace OpenGM.DP
open Spec
open scoped Classical
variable {V : Type}

theorem rootLoop_spec {bop : V → V → Bool} (hw : StrictWeak bop) (row : List V) (X : Nat → V) :
    ∀ (is : List Nat) (v : V) (a : Option Nat), (∀ i ∈ is, row[i]? = some (X i)) →
    ∃ a', rootLoop bop row is v a = some a' ∧
      ((a' = a ∧ ∀ i ∈ is, bop (X i) v = false) ∨
       ∃ i ∈ is, a' = some i ∧ bop (X i) v = true ∧ ∀ j ∈ is, bop (X j) (X i) = false) := by
  intro is
  induction is with
  | nil => intro v a _; exact ⟨a, rfl, Or.inl ⟨rfl, by simp⟩⟩
  | cons l ls ih =>
    intro v a h
    unfold rootLoop
    rw [h l (by simp)]
    simp only
    cases c : bop (X l) v with
    | true =>
      simp only [if_true]
      obtain ⟨a', e1, e2⟩ := ih (X l) (some l) (fun i hi => h i (by simp [hi]))
      refine ⟨a', e1, Or.inr ?_⟩
      rcases e2 with ⟨rfl, e3⟩ | ⟨i, hi, rfl, e3, e4⟩
      · refine ⟨l, by simp, rfl, c, ?_⟩
        intro j hj
        rcases List.mem_cons.mp hj with rfl | hj
        · exact hw.irrefl _
        · exact e3 j hj
      · refine ⟨i, by simp [hi], rfl, hw.trans _ _ _ e3 c, ?_⟩
        intro j hj
        rcases List.mem_cons.mp hj with rfl | hj
        · exact hw.asymm e3
        · exact e4 j hj
    | false =>
      simp only [Bool.false_eq_true, if_false]
      obtain ⟨a', e1, e2⟩ := ih v a (fun i hi => h i (by simp [hi]))
      refine ⟨a', e1, ?_⟩
      rcases e2 with ⟨rfl, e3⟩ | ⟨i, hi, rfl, e3, e4⟩
      · left
        refine ⟨rfl, ?_⟩
        intro j hj
        rcases List.mem_cons.mp hj with rfl | hj
        · exact c
        · exact e3 j hj
      · right
        refine ⟨i, by simp [hi], rfl, e3, ?_⟩
        intro j hj
        rcases List.mem_cons.mp hj with rfl | hj
        · cases hb : bop (X j) (X i) with
          | false => rfl
          | true => rw [hw.trans _ _ _ hb e3] at c; cases c
        · exact e4 j hj

section
variable {gm : GM V} {p : Problem V} {o : Operation V} {bop : V → V → Bool} {accNeutral : V} {d : Solver V}

/-- One factor. -/
theorem argFactor_eq (hr : Represents gm p) (hlenO : d.order.length = p.numLabels.length) (hf : Forest p (ordOf d.order))
    {v f : Nat} (hv : v < p.numLabels.length) (hment : mentions p.terms v f = true) (L : Nat) (arg : List (Option Nat))
    (stack : List Nat) (counter : Nat) :
    argFactor gm d v L f arg stack counter =
      match childVia p (ordOf d.order) v f with
      | some c => assign d.states v L c arg stack counter
      | none => some (arg, stack, counter) := by
  obtain ⟨t, ht, hmem, fr, hfr, hm⟩ := mentions_cases hr hment
  have htm := List.mem_of_getElem? ht
  have hsort := hf.sorted t htm
  have hrg := hf.range t htm
  unfold argFactor
  rw [hfr]
  simp only
  rw [hm.visSize]
  by_cases h2 : t.vars.length = 2
  · rw [if_pos h2]
    obtain ⟨a, b, hvs⟩ := List.length_eq_two.mp h2
    rw [hvs] at hsort hrg
    simp only [List.pairwise_cons, List.mem_singleton, forall_eq] at hsort
    have hab : a < b := hsort.1
    have har : a < p.numLabels.length := hrg a (by simp)
    have hbr : b < p.numLabels.length := hrg b (by simp)
    have e0 : gm.visAt fr 0 = some a := by rw [hm.visAt 0 (by rw [hm.visSize, hvs]; simp), hvs]; rfl
    have e1 : gm.visAt fr 1 = some b := by rw [hm.visAt 1 (by rw [hm.visSize, hvs]; simp), hvs]; rfl
    rw [e0, e1]
    have i1 := isChild_spec d.order (v := v) (c := b) (by omega) (by omega) a
    have i2 := isChild_spec d.order (v := v) (c := a) (by omega) (by omega) b
    simp only
    rw [i1, i2]
    have hcv : childVia p (ordOf d.order) v f =
        if a = v ∧ ordOf d.order v < ordOf d.order b then some b
        else if b = v ∧ ordOf d.order v < ordOf d.order a then some a else none := by
      simp [childVia, ht, hvs]
    rw [hcv]
    by_cases c1 : a = v ∧ ordOf d.order v < ordOf d.order b
    · have c2 : ¬ (b = v ∧ ordOf d.order v < ordOf d.order a) := by omega
      rw [decide_eq_true c1, decide_eq_false c2, if_pos c1]
      simp only [if_true, Bool.false_eq_true, if_false]
    · rw [decide_eq_false c1, if_neg c1]
      by_cases c2 : b = v ∧ ordOf d.order v < ordOf d.order a
      · rw [decide_eq_true c2, if_pos c2]
        simp only [if_true, Bool.false_eq_true, if_false]
        cases assign d.states v L a arg stack counter <;> rfl
      · rw [decide_eq_false c2, if_neg c2]
        simp only [Bool.false_eq_true, if_false]
  · rw [if_neg h2]
    have : childVia p (ordOf d.order) v f = none := by
      unfold childVia
      rw [ht]
      simp only
      split
      · next a b h => rw [h] at h2; simp at h2
      · rfl
    rw [this]

theorem argFactors_spec (hr : Represents gm p) (hd : Shape p d) (hf : Forest p (ordOf d.order))
    {v : Nat} (hv : v < p.numLabels.length) {msg : Nat → Nat → V} {st : Nat → Nat → Nat}
    (hn : NodeDone o bop accNeutral p (ordOf d.order) d.values d.states v msg st) {l : Nat} (hl : l < p.numLabels.getD v 0) :
    ∀ (fs done : List Nat) (arg : List (Option Nat)) (stack : List Nat) (counter : Nat),
      (List.range p.terms.length).filter (mentions p.terms v) = done ++ fs →
      counter = (done.filter (fun f => (childVia p (ordOf d.order) v f).isSome)).length →
      arg.length = p.numLabels.length → arg[v]? = some (some l) →
      ∃ arg', argFactors gm d v (p.numLabels.getD v 0) fs arg stack counter =
          some (arg', (fs.filterMap (childVia p (ordOf d.order) v)).reverse ++ stack) ∧ arg'.length = p.numLabels.length ∧
        (∀ f c, f ∈ fs → childVia p (ordOf d.order) v f = some c → arg'[c]? = some (some (st f l))) ∧
        (∀ u, (∀ f ∈ fs, childVia p (ordOf d.order) v f ≠ some u) → arg'[u]? = arg[u]?) := by
  intro fs
  induction fs with
  | nil => intro done arg stack counter _ _ h1 _; exact ⟨arg, by simp [argFactors], h1, by simp, by simp⟩
  | cons f fs ih =>
    intro done arg stack counter hsp hc h1 h2
    have hmf : f ∈ (List.range p.terms.length).filter (mentions p.terms v) := by rw [hsp]; simp
    have hsp' : (List.range p.terms.length).filter (mentions p.terms v) = (done ++ [f]) ++ fs := by rw [hsp]; simp
    unfold argFactors
    rw [argFactor_eq hr hd.num.len hf hv (List.mem_filter.mp hmf).2]
    cases hcv : childVia p (ordOf d.order) v f with
    | none =>
      simp only
      obtain ⟨arg', e1, e2, e3, e4⟩ := ih (done ++ [f]) arg stack counter hsp'
        (by rw [hc, List.filter_append]; simp [hcv]) h1 h2
      refine ⟨arg', ?_, e2, ?_, ?_⟩
      · rw [e1, List.filterMap_cons_none hcv]
      · intro g c hg hgc
        rcases List.mem_cons.mp hg with rfl | hg
        · rw [hcv] at hgc; cases hgc
        · exact e3 g c hg hgc
      · intro u hu
        exact e4 u (fun g hg => hu g (by simp [hg]))
    | some c =>
      simp only
      have hcr := childVia_range hf hcv
      have hcvne : c ≠ v := by
        rintro rfl
        have := ((childVia_eq_some hf.sorted).mp hcv).2
        omega
      have hpos : (childFactors p (ordOf d.order) v)[counter]? = some f := by
        rw [childFactors_eq, hsp, List.filter_append, hc, List.getElem?_append_right (Nat.le_refl _)]
        simp [hcv]
      have hst := hn.states counter f l hpos hl
      have hvS : v < d.states.length := by rw [hd.lenS]; exact hv
      have hsr : d.states[v]? = some (d.states.getD v []) := by
        simp [List.getD_eq_getElem?_getD, List.getElem?_eq_getElem hvS]
      have hca : c < arg.length := by omega
      have hass : assign d.states v (p.numLabels.getD v 0) c arg stack counter =
          some (arg.set c (some (st f l)), c :: stack, counter + 1) := by
        unfold assign
        rw [hsr, h2]
        simp only
        rw [hst]
        simp only
        rw [setAt_of_lt _ hca]
      rw [hass]
      simp only
      obtain ⟨arg', e1, e2, e3, e4⟩ := ih (done ++ [f]) (arg.set c (some (st f l))) (c :: stack) (counter + 1) hsp'
        (by rw [hc, List.filter_append]; simp [hcv]) (by simpa using h1)
        (by rw [List.getElem?_set_ne hcvne]; exact h2)
      have hnod : ((List.range p.terms.length).filter (mentions p.terms v)).Nodup := List.nodup_range.filter _
      rw [hsp, List.nodup_append, List.nodup_cons] at hnod
      have hnotc : ∀ g ∈ fs, childVia p (ordOf d.order) v g ≠ some c := by
        intro g hg hgc
        obtain ⟨a1, a2⟩ := (childVia_eq_some hf.sorted).mp hcv
        obtain ⟨b1, b2⟩ := (childVia_eq_some hf.sorted).mp hgc
        have := (hf.uniq c f v g v a1 b1 a2 b2).1
        subst this
        exact hnod.2.1.1 hg
      refine ⟨arg', ?_, e2, ?_, ?_⟩
      · rw [e1, List.filterMap_cons_some hcv]
        simp
      · intro g c' hg hgc
        rcases List.mem_cons.mp hg with rfl | hg
        · rw [hcv] at hgc
          cases hgc
          rw [e4 c hnotc, List.getElem?_set_self hca]
        · exact e3 g c' hg hgc
      · intro u hu
        rw [e4 u (fun g hg => hu g (by simp [hg])), List.getElem?_set_ne]
        rintro rfl
        exact hu f (by simp) hcv

/-- All nodes are done. -/
def AllDone (o : Operation V) (bop : V → V → Bool) (accNeutral : V) (p : Problem V) (d : Solver V) (msg : Nat → Nat → Nat → V)
    (st : Nat → Nat → Nat → Nat) : Prop :=
  ∀ v, v < p.numLabels.length → NodeDone o bop accNeutral p (ordOf d.order) d.values d.states v (msg v) (st v)

/-- Invariant of `arg`. -/
structure ArgInv (o : Operation V) (bop : V → V → Bool) (p : Problem V) (d : Solver V) (st : Nat → Nat → Nat → Nat)
    (arg : List (Option Nat)) (stack : List Nat) : Prop where
  len : arg.length = p.numLabels.length
  lab : ∀ u l : Nat, arg[u]? = some (some l) → l < p.numLabels.getD u 0
  stk : ∀ u ∈ stack, ∃ l, arg[u]? = some (some l)
  cons : ∀ v f c l : Nat, childVia p (ordOf d.order) v f = some c → arg[v]? = some (some l) → v ∈ stack ∨ arg[c]? = some (some (st v f l))
  root : ∀ r l : Nat, (∀ u f, childVia p (ordOf d.order) u f ≠ some r) → arg[r]? = some (some l) →
    ∀ l', l' < p.numLabels.getD r 0 → bop (valOf o d.values r l') (valOf o d.values r l) = false

theorem mem_kids_list {ord : Nat → Nat} {v c : Nat} :
    c ∈ ((List.range p.terms.length).filter (mentions p.terms v)).filterMap (childVia p ord v) ↔
      ∃ f, childVia p ord v f = some c := by
  simp only [List.mem_filterMap, List.mem_filter, List.mem_range]
  constructor
  · rintro ⟨f, _, h⟩; exact ⟨f, h⟩
  · rintro ⟨f, h⟩
    have : f ∈ childFactors p ord v := List.mem_filter.mpr ⟨List.mem_range.mpr (childVia_lt h), by simp [h]⟩
    rw [childFactors_eq] at this
    exact ⟨f, by simpa using (List.mem_filter.mp this).1, h⟩

theorem argDrain_spec (hr : Represents gm p) (hd : Shape p d) (hf : Forest p (ordOf d.order)) {msg : Nat → Nat → Nat → V}
    {st : Nat → Nat → Nat → Nat} (hn : AllDone o bop accNeutral p d msg st) (start : Nat) :
    ∀ (fuel : Nat) (arg : List (Option Nat)) (stack seen : List Nat), p.numLabels.length < fuel + seen.length →
      (seen ++ stack).Nodup → (∀ u ∈ seen ++ stack, u < p.numLabels.length ∧ ordOf d.order start ≤ ordOf d.order u) →
      (∀ u ∈ seen ++ stack, u = start ∨ ∃ w f, childVia p (ordOf d.order) w f = some u ∧ w ∈ seen) →
      ArgInv o bop p d st arg stack →
      ∃ arg', argDrain gm d fuel arg stack = some arg' ∧ ArgInv o bop p d st arg' [] ∧
        ∀ u l : Nat, arg[u]? = some (some l) → ∃ l', arg'[u]? = some (some l') := by
  intro fuel
  induction fuel with
  | zero =>
    intro arg stack seen hfu hnd hrange
    have := (List.Nodup.subperm (List.nodup_append.mp hnd).1
      (fun u hu => List.mem_range.mpr (hrange u (by simp [hu])).1)).length_le
    simp only [List.length_range] at this
    omega
  | succ fuel ih =>
    intro arg stack seen hfu hnd hrange hpar h
    cases stack with
    | nil => exact ⟨arg, by unfold argDrain; rfl, h, fun u l hu => ⟨l, hu⟩⟩
    | cons v rest =>
      have hv : v < p.numLabels.length := (hrange v (by simp)).1
      obtain ⟨l, hl⟩ := h.stk v (by simp)
      have hlL := h.lab v l hl
      obtain ⟨arg', e1, e2, e3, e4⟩ := argFactors_spec hr hd hf hv (hn v hv) hlL
        ((List.range p.terms.length).filter (mentions p.terms v)) [] arg rest 0 (by simp) (by simp) h.len hl
      unfold argDrain
      rw [hr.adj v (by rw [hr.labels]; exact hv), hr.labels, getD_some hv]
      simp only
      rw [e1]
      simp only
      have hkm := @mem_kids_list V p (ordOf d.order) v
      generalize hK : ((List.range p.terms.length).filter (mentions p.terms v)).filterMap (childVia p (ordOf d.order) v) = K at hkm e1
      have hKnd : K.Nodup := by
        rw [← hK]
        apply List.Nodup.filterMap
        · intro f f' c h1 h2
          simp only [Option.mem_def] at h1 h2
          obtain ⟨a1, a2⟩ := (childVia_eq_some hf.sorted).mp h1
          obtain ⟨b1, b2⟩ := (childVia_eq_some hf.sorted).mp h2
          exact (hf.uniq c f v f' v a1 b1 a2 b2).1
        · exact List.nodup_range.filter _
      have hmemF : ∀ f c, childVia p (ordOf d.order) v f = some c → f ∈ (List.range p.terms.length).filter (mentions p.terms v) := by
        intro f c hfc
        have : f ∈ childFactors p (ordOf d.order) v := List.mem_filter.mpr ⟨List.mem_range.mpr (childVia_lt hfc), by simp [hfc]⟩
        rw [childFactors_eq] at this
        exact (List.mem_filter.mp this).1
      have hkid : ∀ f c, childVia p (ordOf d.order) v f = some c → arg'[c]? = some (some (st v f l)) :=
        fun f c hfc => e3 f c (hmemF f c hfc) hfc
      have hnk : ∀ u, u ∉ K → arg'[u]? = arg[u]? := by
        intro u hu
        exact e4 u (fun f _ hfu => hu (hkm.mpr ⟨f, hfu⟩))
      have hord : ∀ c ∈ K, ordOf d.order v < ordOf d.order c := by
        intro c hc
        obtain ⟨f, hfc⟩ := hkm.mp hc
        exact ((childVia_eq_some hf.sorted).mp hfc).2
      have hfresh : ∀ c ∈ K, c ∉ seen ++ v :: rest := by
        intro c hc hmem
        obtain ⟨f, hfc⟩ := hkm.mp hc
        rcases hpar c hmem with rfl | ⟨w, g, hw, hws⟩
        · have h1 := hord c hc
          have h2 := (hrange v (by simp)).2
          omega
        · have := parent_unique hf hw hfc
          subst this
          rw [List.nodup_append] at hnd
          exact hnd.2.2 w hws w (by simp) rfl
      have hrest : ∀ u, u ∉ K → (u ∈ K.reverse ++ rest ↔ u ∈ rest) := by
        intro u hu; simp [hu]
      have hinv' : ArgInv o bop p d st arg' (K.reverse ++ rest) := by
        refine ⟨e2, ?_, ?_, ?_, ?_⟩
        · intro u l' hu
          by_cases hk : u ∈ K
          · obtain ⟨f, hfu⟩ := hkm.mp hk
            rw [hkid f u hfu] at hu
            cases hu
            exact ((hn v hv).rows.best f u l hfu hlL).1
          · rw [hnk u hk] at hu; exact h.lab u l' hu
        · intro u hu
          by_cases hk : u ∈ K
          · obtain ⟨f, hfu⟩ := hkm.mp hk
            exact ⟨_, hkid f u hfu⟩
          · rw [hnk u hk]
            exact h.stk u (by simp [(hrest u hk).mp hu])
        · intro w f c l' hwc hwl
          by_cases hwv : w = v
          · subst hwv
            right
            have hwk : w ∉ K := fun hk => hfresh w hk (by simp)
            rw [hnk w hwk, hl] at hwl
            cases hwl
            exact hkid f c hwc
          · by_cases hk : w ∈ K
            · left; simp [hk]
            · rw [hnk w hk] at hwl
              have hck : c ∉ K := by
                intro hck
                obtain ⟨g, hg⟩ := hkm.mp hck
                exact hwv (parent_unique hf hwc hg)
              rcases h.cons w f c l' hwc hwl with h' | h'
              · left
                rcases List.mem_cons.mp h' with h' | h'
                · exact absurd h' hwv
                · simp [h']
              · right; rw [hnk c hck]; exact h'
        · intro r l' hr' hrl
          have hk : r ∉ K := fun hk => by
            obtain ⟨f, hfr⟩ := hkm.mp hk
            exact hr' v f hfr
          rw [hnk r hk] at hrl
          exact h.root r l' hr' hrl
      obtain ⟨arg'', g1, g2, g3⟩ := ih arg' (K.reverse ++ rest) (v :: seen) (by simp only [List.length_cons]; omega)
        (by
          rw [List.nodup_append] at hnd
          have hnd2 := List.nodup_cons.mp hnd.2.1
          rw [List.cons_append, List.nodup_cons, List.nodup_append, List.nodup_append]
          refine ⟨?_, hnd.1, ⟨List.nodup_reverse.mpr hKnd, hnd2.2, ?_⟩, ?_⟩
          · intro hm
            rcases List.mem_append.mp hm with hm | hm
            · exact hnd.2.2 v hm v (by simp) rfl
            · rcases List.mem_append.mp hm with hm | hm
              · exact hfresh v (by simpa using hm) (by simp)
              · exact hnd2.1 hm
          · rintro a ha b hb rfl
            exact hfresh a (by simpa using ha) (by simp [hb])
          · rintro a ha b hb rfl
            rcases List.mem_append.mp hb with hb | hb
            · exact hfresh a (by simpa using hb) (by simp [ha])
            · exact hnd.2.2 a ha a (by simp [hb]) rfl)
        (by
          intro u hu
          by_cases hk : u ∈ K
          · obtain ⟨f, hfu⟩ := hkm.mp hk
            have h1 := hord u hk
            have h2 := (hrange v (by simp)).2
            exact ⟨childVia_range hf hfu, by omega⟩
          · apply hrange u
            simp only [List.cons_append, List.mem_cons, List.mem_append, List.mem_reverse, hk, false_or] at hu ⊢
            tauto)
        (by
          intro u hu
          by_cases hk : u ∈ K
          · obtain ⟨f, hfu⟩ := hkm.mp hk
            exact Or.inr ⟨v, f, hfu, by simp⟩
          · have : u ∈ seen ++ v :: rest := by
              simp only [List.cons_append, List.mem_cons, List.mem_append, List.mem_reverse, hk, false_or] at hu ⊢
              tauto
            rcases hpar u this with h' | ⟨w, g, hw, hws⟩
            · exact Or.inl h'
            · exact Or.inr ⟨w, g, hw, by simp [hws]⟩) hinv'
      refine ⟨arg'', g1, g2, ?_⟩
      intro u l' hu
      by_cases hk : u ∈ K
      · obtain ⟨f, hfu⟩ := hkm.mp hk
        exact g3 u _ (hkid f u hfu)
      · exact g3 u l' (by rw [hnk u hk]; exact hu)

theorem argLoop_spec (hset : Setting o bop accNeutral p) (hr : Represents gm p) (hd : Shape p d) (hf : Forest p (ordOf d.order))
    {msg : Nat → Nat → Nat → V} {st : Nat → Nat → Nat → Nat} (hn : AllDone o bop accNeutral p d msg st) :
    ∀ (k var : Nat) (arg : List (Option Nat)), k + var = p.numLabels.length →
      ArgInv o bop p d st arg [] → (∀ u, u < var → ∃ l, arg[u]? = some (some l)) →
      ∃ arg', argLoop bop accNeutral gm d k var arg = some arg' ∧ ArgInv o bop p d st arg' [] ∧
        ∀ u, u < p.numLabels.length → ∃ l, arg'[u]? = some (some l) := by
  have hnv : gm.numberOfVariables = p.numLabels.length := by rw [GM.numberOfVariables, hr.labels]
  intro k
  induction k with
  | zero =>
    intro var arg hk h hl
    exact ⟨arg, rfl, h, fun u hu => hl u (by omega)⟩
  | succ k ih =>
    intro var arg hk h hl
    have hvar : var < p.numLabels.length := by omega
    have hva : var < arg.length := by rw [h.len]; exact hvar
    unfold argLoop
    rw [List.getElem?_eq_getElem hva]
    cases e : arg[var] with
    | some a =>
      simp only
      refine ih (var + 1) arg (by omega) h ?_
      intro u hu
      by_cases eu : u = var
      · subst eu; exact ⟨a, by rw [List.getElem?_eq_getElem hva, e]⟩
      · exact hl u (by omega)
    | none =>
      simp only
      have hvV : var < d.values.length := by rw [hd.lenV]; exact hvar
      have hrow : d.values[var]? = some (d.values.getD var []) := by
        simp [List.getD_eq_getElem?_getD, List.getElem?_eq_getElem hvV]
      rw [hr.labels, getD_some hvar, hrow]
      simp only
      have hnode := hn var hvar
      obtain ⟨a', r1, r2⟩ := rootLoop_spec hset.weak (d.values.getD var []) (fun i => valOf o d.values var i)
        (List.range (p.numLabels.getD var 0)) accNeutral none (by
          intro i hi
          have : i < (d.values.getD var []).length := by rw [hnode.len]; exact List.mem_range.mp hi
          rw [valOf, List.getD_eq_getElem?_getD (l := d.values.getD var []), List.getElem?_eq_getElem this]; rfl)
      have hLpos : 0 < p.numLabels.getD var 0 := hset.pos _ (List.mem_of_getElem? (getD_some hvar))
      rcases r2 with ⟨_, r3⟩ | ⟨i, hi, rfl, _, r4⟩
      · have := r3 0 (List.mem_range.mpr hLpos)
        rw [hnode.good 0 hLpos] at this
        cases this
      · have hi' := List.mem_range.mp hi
        rw [r1]
        simp only
        have hun : arg[var]? = some none := by rw [List.getElem?_eq_getElem hva, e]
        -- the parent of an unlabelled variable is unlabelled
        have hinv : ArgInv o bop p d st (arg.set var (some i)) [var] := by
          refine ⟨by simpa using h.len, ?_, ?_, ?_, ?_⟩
          · intro u l hu
            by_cases eu : u = var
            · subst eu
              rw [List.getElem?_set_self hva] at hu
              cases hu; exact hi'
            · rw [List.getElem?_set_ne (Ne.symm eu)] at hu; exact h.lab u l hu
          · intro u hu
            simp only [List.mem_singleton] at hu; subst hu
            exact ⟨i, List.getElem?_set_self hva⟩
          · intro w f c l hwc hwl
            by_cases ew : w = var
            · left; simp [ew]
            · right
              rw [List.getElem?_set_ne (Ne.symm ew)] at hwl
              rcases h.cons w f c l hwc hwl with h' | h'
              · simp at h'
              · have hc : c ≠ var := by rintro rfl; rw [hun] at h'; cases h'
                rw [List.getElem?_set_ne (Ne.symm hc)]; exact h'
          · intro r l hr' hrl
            by_cases er : r = var
            · subst er
              rw [List.getElem?_set_self hva] at hrl
              cases hrl
              intro l' hl'
              exact r4 l' (List.mem_range.mpr hl')
            · rw [List.getElem?_set_ne (Ne.symm er)] at hrl
              exact h.root r l hr' hrl
        obtain ⟨arg', g1, g2, g3⟩ := argDrain_spec hr hd hf hn var (gm.numberOfVariables + 1) (arg.set var (some i)) [var] []
          (by rw [hnv]; simp) (by simp) (by intro u hu; simp at hu; subst hu; exact ⟨hvar, Nat.le_refl _⟩)
          (by intro u hu; simp at hu; exact Or.inl hu) hinv
        rw [g1]
        refine ih (var + 1) arg' (by omega) g2 ?_
        intro u hu
        by_cases eu : u = var
        · subst eu; exact g3 u i (List.getElem?_set_self hva)
        · obtain ⟨l, hul⟩ := hl u (by omega)
          exact g3 u l (by rw [List.getElem?_set_ne (Ne.symm eu)]; exact hul)

/-- `arg` after `infer`. -/
theorem arg_spec (hset : Setting o bop accNeutral p) (hr : Represents gm p) (h2 : ∀ t ∈ p.terms, t.vars.length ≤ 2) (hd : Shape p d)
    (hs : d.started = true)
    (hdone : ∀ v, v < p.numLabels.length → ∃ msg st, NodeDone o bop accNeutral p (ordOf d.order) d.values d.states v msg st)
    {n : Nat} (hn1 : n ≤ 1) :
    ∃ y, arg bop accNeutral gm d n = some (true, y.map some) ∧ p.Labeling y ∧
      ∀ x, p.Labeling x → bop (p.energy o x) (p.energy o y) = false := by
  have hf := hd.num.forest hr h2
  have hnv : gm.numberOfVariables = p.numLabels.length := by rw [GM.numberOfVariables, hr.labels]
  haveI : Nonempty V := ⟨accNeutral⟩
  choose! msg st hn using hdone
  have hall : AllDone o bop accNeutral p d msg st := hn
  obtain ⟨a, e1, e2, e3⟩ := argLoop_spec hset hr hd hf hall p.numLabels.length 0 (List.replicate p.numLabels.length none) (by omega)
    ⟨by simp, by
        intro u l hu
        simp only [List.getElem?_replicate] at hu
        split at hu <;> simp at hu,
      by simp, by
        intro v f c l _ hu
        simp only [List.getElem?_replicate] at hu
        split at hu <;> simp at hu,
      by
        intro r l _ hu
        simp only [List.getElem?_replicate] at hu
        split at hu <;> simp at hu⟩ (by omega)
  have hget : ∀ u l : Nat, a[u]? = some (some l) → (a.map (fun x => x.getD 0))[u]? = some l := by
    intro u l hu; simp [hu]
  have hmap : a = (a.map (fun x => x.getD 0)).map some := by
    rw [List.map_map]
    conv_lhs => rw [← List.map_id a]
    apply List.map_congr_left
    intro x hx
    obtain ⟨u, hu, rfl⟩ := List.getElem_of_mem hx
    obtain ⟨l, hl⟩ := e3 u (by rw [← e2.len]; exact hu)
    rw [List.getElem?_eq_getElem hu] at hl
    injection hl with hl
    simp [hl]
  have hyD : ∀ u l : Nat, a[u]? = some (some l) → (a.map (fun x => x.getD 0)).getD u 0 = l := by
    intro u l hu
    rw [List.getD_eq_getElem?_getD, hget u l hu]; rfl
  refine ⟨a.map (fun x => x.getD 0), ?_, ?_, ?_⟩
  · unfold arg
    rw [if_neg (by omega), hs, hnv, e1, ← hmap]
    simp
  · refine ⟨by simpa using e2.len, ?_⟩
    intro v l m hv hm
    have hvn : v < p.numLabels.length := (List.getElem?_eq_some_iff.mp hm).1
    obtain ⟨l', hl'⟩ := e3 v hvn
    rw [hget v l' hl'] at hv
    cases hv
    have := e2.lab v l hl'
    rw [getD_some hvn] at hm
    cases hm
    exact this
  · have hlab : p.Labeling (a.map (fun x => x.getD 0)) := by
      refine ⟨by simpa using e2.len, ?_⟩
      intro v l m hv hm
      have hvn : v < p.numLabels.length := (List.getElem?_eq_some_iff.mp hm).1
      obtain ⟨l', hl'⟩ := e3 v hvn
      rw [hget v l' hl'] at hv
      cases hv
      have := e2.lab v l hl'
      rw [getD_some hvn] at hm
      cases hm
      exact this
    refine follows_optimal hset.comm hf hset.weak hset.reflects (fun v hv => (hall v hv).rows) hlab ?_ ?_
    · intro v f c hvc
      have hv : v < p.numLabels.length := owns_range (v := v) (f := f) hf (by simp [owns, hvc])
      obtain ⟨l, hl⟩ := e3 v hv
      rcases e2.cons v f c l hvc hl with h' | h'
      · simp at h'
      · rw [hyD c _ h', hyD v l hl]
    · intro r hr' hroot l hl
      obtain ⟨lr, hlr⟩ := e3 r hr'
      rw [hyD r lr hlr]
      exact e2.root r lr hroot hlr l hl

end
end OpenGM.DP

namespace OpenGM.DP
open Spec
open scoped Classical
variable {V : Type} {gm : GM V} {p : Problem V}

theorem shape_of_construct (hr : Represents gm p) (h2 : ∀ t ∈ p.terms, t.vars.length ≤ 2) {d : Solver V}
    (hn : Numbering p d.order d.nodes) (hV : d.values.length = p.numLabels.length) (hS : d.states.length = p.numLabels.length)
    (hrow : ∀ v n : Nat, p.numLabels[v]? = some n → ∃ srow, d.states[v]? = some srow ∧
        srow.length = n * (List.range p.numLabels.length).countP (fun c => decide (Child p d.order v c))) : Shape p d := by
  have hf := hn.forest hr h2
  refine ⟨hn, hV, hS, ?_⟩
  intro v hv
  obtain ⟨srow, e1, e2⟩ := hrow v _ (getD_some hv)
  rw [List.getD_eq_getElem?_getD, e1]
  simp only [Option.getD_some]
  rw [e2]
  congr 1
  have hK : (childFactors p (ordOf d.order) v).length = ((List.range p.terms.length).filterMap (childVia p (ordOf d.order) v)).length := by
    rw [List.length_filterMap_eq_countP, childFactors, List.countP_eq_length_filter]
  rw [hK, List.countP_eq_length_filter]
  apply List.Perm.length_eq
  rw [List.perm_ext_iff_of_nodup (List.nodup_range.filter _)]
  · intro c
    have ho : ∀ u, u < p.numLabels.length → d.order[u]? = some (ordOf d.order u) := by
      intro u hu
      have : u < d.order.length := by rw [hn.len]; exact hu
      simp [ordOf, List.getElem?_eq_getElem this]
    simp only [List.mem_filter, List.mem_range, decide_eq_true_eq, List.mem_filterMap]
    constructor
    · rintro ⟨hc, ⟨f, hfp⟩, i, j, hi, hj, hij⟩
      rw [ho v hv] at hi
      rw [ho c hc] at hj
      cases hi; cases hj
      have hcv := (childVia_eq_some hf.sorted).mpr ⟨hfp, hij⟩
      exact ⟨f, childVia_lt hcv, hcv⟩
    · rintro ⟨f, _, hcv⟩
      obtain ⟨a1, a2⟩ := (childVia_eq_some hf.sorted).mp hcv
      have hc := childVia_range hf hcv
      exact ⟨hc, ⟨f, a1⟩, _, _, ho v hv, ho c hc, a2⟩
  · apply List.Nodup.filterMap _ List.nodup_range
    intro f f' c h1 h2
    simp only [Option.mem_def] at h1 h2
    obtain ⟨a1, a2⟩ := (childVia_eq_some hf.sorted).mp h1
    obtain ⟨b1, b2⟩ := (childVia_eq_some hf.sorted).mp h2
    exact (hf.uniq c f v f' v a1 b1 a2 b2).1

end OpenGM.DP
