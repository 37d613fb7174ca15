import Verif.Lemmas.ModeFactor
import Verif.Lemmas.BPInit
import Verif.Lemmas.BPMarginal
/-
`modeFromFactorMarginal` returns an optimal labeling of a forest if the marginals are exact.
-/
namespace OpenGM.Mode
open Spec BP FactorOps
variable {V : Type}

/-- What is assumed of the operations. -/
structure Suits (q : Ops V) (P : V → Prop) : Prop where
  ordered : OrderedValues q.o q.bop P
  neutral : ∀ v, q.bop q.accNeutral v = false
  beats : ∀ a, P a → q.bop a q.accNeutral = true
  one : P q.one
  near : Closeness q.bop q.close P

/-- What is assumed of the model and the marginals. -/
structure Setting (q : Ops V) (P : V → Prop) (m : Base V) (p : Problem V) : Prop where
  represents : Represents m.gm p
  positive : ∀ n ∈ p.numLabels, 0 < n
  forest : (bipartite p.scopes).IsAcyclic
  values : p.Values P
  marginal : ∀ v, v < p.numLabels.length → ∃ out, m.marginal v = some out ∧
    Exact q.o q.bop q.accNeutral P p [v] ((List.range (p.numLabels.getD v 0)).map (fun l => [l])) out
  factorMarginal : ∀ f t, p.terms[f]? = some t → t.vars ≠ [] → ∃ out, m.factorMarginal f = some out ∧
    Exact q.o q.bop q.accNeutral P p t.vars (allTuples (restrict p.numLabels t.vars)) out

variable {q : Ops V} {P : V → Prop} {m : Base V} {p : Problem V}

theorem Setting.range (h : Setting q P m p) : ∀ t ∈ p.terms, ∀ v ∈ t.vars, v < p.numLabels.length := by
  intro t ht v hv
  have hr := h.represents
  obtain ⟨f, hf⟩ := List.mem_iff_getElem?.mp ht
  have hfl : f < m.gm.factors.length := by rw [hr.factors.length_eq]; exact (List.getElem?_eq_some_iff.mp hf).1
  obtain ⟨t', ht', hm⟩ := MessagePassing.factor_matches hr (List.getElem?_eq_getElem hfl)
  rw [hf] at ht'
  cases ht'
  rw [← hr.labels]
  exact hm.range v hv

theorem allTuples_single (n : Nat) : allTuples [n] = (List.range n).map (fun l => [l]) := by
  simp [allTuples]

/-! ### Labels from the marginal of a variable -/

section
variable (hq : Suits q P) (h : Setting q P m p)
include hq h

/-- The best objective with label `l` of variable `v`. -/
theorem best_with_label {v l : Nat} (hv : v < p.numLabels.length) (hl : l < p.numLabels.getD v 0) :
    (∃ x, p.Labeling x ∧ x.getD v 0 = l ∧ p.marginal q.o (minOp q.bop) q.accNeutral [v] [l] = p.energy q.o x) ∧
    ∀ x, p.Labeling x → x.getD v 0 = l → q.bop (p.energy q.o x) (p.marginal q.o (minOp q.bop) q.accNeutral [v] [l]) = false := by
  have hex : ∃ x, p.Labeling x ∧ restrict x [v] = [l] := by
    refine ⟨(List.range p.numLabels.length).map (fun u => if u = v then l else 0), ?_, ?_⟩
    · rw [labeling_get]
      refine ⟨by simp, fun u hu => ?_⟩
      have e : ((List.range p.numLabels.length).map (fun u => if u = v then l else 0)).getD u 0 = if u = v then l else 0 := by simp [List.getD, hu]
      rw [e]
      split
      · rename_i e; rw [e]; exact hl
      · have := h.positive p.numLabels[u] (List.getElem_mem hu)
        simpa [List.getD, hu] using this
    · simp [restrict, List.getD, hv]
  obtain ⟨⟨x, h1, h2, h3⟩, h4⟩ := marginal_best (o := q.o) hq.ordered.order hq.ordered.total hq.neutral hex
  refine ⟨⟨x, h1, by simpa [restrict] using h2, h3⟩, fun x h1 h2 => h4 x h1 (by simpa [restrict] using h2)⟩

/-- The entries of the returned table are ordered as the marginals. -/
theorem entry_order {vs : List Nat} {ts : List (List Nat)} {out : List V} (he : Exact q.o q.bop q.accNeutral P p vs ts out) {k k' : Nat} {t t' : List Nat} {b b' : V}
    (h1 : ts[k]? = some t) (h2 : out[k]? = some b) (h3 : ts[k']? = some t') (h4 : out[k']? = some b') :
    q.bop (p.marginal q.o (minOp q.bop) q.accNeutral vs t) (p.marginal q.o (minOp q.bop) q.accNeutral vs t') = q.bop b b' := by
  obtain ⟨hb, c, pc, hlen, hm⟩ := he
  rw [hm k t b h1 h2, hm k' t' b' h3 h4]
  exact keeps_iff hq.ordered pc (hb b (List.mem_of_getElem? h2)) (hb b' (List.mem_of_getElem? h4))

theorem range_entry {n l : Nat} (hl : l < n) : ((List.range n).map (fun l => [l]))[l]? = some [l] := by
  rw [List.getElem?_map, List.getElem?_range hl]; rfl

/-- A labeling that is as good as all labels of `v` allow is optimal. -/
theorem optimum_of_label {v l : Nat} {out : List V} (hv : v < p.numLabels.length) (hl : l < p.numLabels.getD v 0)
    (he : Exact q.o q.bop q.accNeutral P p [v] ((List.range (p.numLabels.getD v 0)).map (fun l => [l])) out) {b : V} (hb : out[l]? = some b)
    (hbest : ∀ l' b', l' < p.numLabels.getD v 0 → out[l']? = some b' → q.bop b' b = false) : ∃ y, p.Optimum q.o q.bop y ∧ y.getD v 0 = l := by
  obtain ⟨⟨y, y1, y2, y3⟩, _⟩ := best_with_label hq h hv hl
  refine ⟨y, ⟨y1, fun x hx => ?_⟩, y2⟩
  have hxl : x.getD v 0 < p.numLabels.getD v 0 := (labeling_get.mp hx).2 v hv
  obtain ⟨_, h2⟩ := best_with_label hq h hv hxl
  have hlen := he.2.choose_spec.2.1
  have hxo : x.getD v 0 < out.length := by rw [hlen]; simpa using hxl
  have h3 := hbest _ _ hxl (List.getElem?_eq_getElem hxo)
  rw [← entry_order hq h he (range_entry hq h hxl) (List.getElem?_eq_getElem hxo) (range_entry hq h hl) hb] at h3
  rw [← y3]
  exact not_better_trans hq.ordered.order hq.ordered.total (h2 x hx rfl) h3

/-- `setFromMarginal` for an unset variable. -/
theorem pick_marginal {s : Search} {v : Nat} (hv : v < p.numLabels.length) (hlen : s.conf.length = p.numLabels.length) (hu : confAt s.conf v = none) :
    ∃ l y, setFromMarginal q m v s = some { s with conf := s.conf.set v (some l), waiting := v :: s.waiting } ∧ p.Optimum q.o q.bop y ∧ y.getD v 0 = l := by
  obtain ⟨out, o1, o2⟩ := h.marginal v hv
  have hlab : m.gm.numLabels = p.numLabels := h.represents.labels
  have hol := o2.2.choose_spec.2.1
  simp only [List.length_map, List.length_range] at hol
  have hpos : 0 < labelsOf p.numLabels v := h.positive _ (by simp [labelsOf, List.getD, hv])
  obtain ⟨F, F1, F2, F3, F4⟩ := outFactor_spec (q := q) (gm := m.gm) (vars := [v]) (out := out) (by rw [hlab]; simpa using hv) (by rw [hlab]; exact h.positive) (by simp) (by
    rw [hlab]
    simp only [List.map_cons, List.map_nil, allTuples_single, List.length_map, List.length_range]
    exact hol)
  rw [hlab] at F4
  simp only [List.map_cons, List.map_nil] at F4
  have hen : ∀ l, l < labelsOf p.numLabels v → out[l]? = some (entry q.zero [labelsOf p.numLabels v] out [l]) := by
    intro l hl
    obtain ⟨k, k1, k2, _⟩ := entry_spec (zero := q.zero) (shape := [labelsOf p.numLabels v]) (out := out) (by simp [allTuples_single, hol, labelsOf]) (t := [l]) ⟨hl, trivial⟩
    rw [allTuples_single, List.getElem?_map] at k1
    obtain ⟨a, a1, a2⟩ := Option.map_eq_some_iff.mp k1
    have := (List.getElem?_eq_some_iff.mp a1).2
    simp only [List.getElem_range] at this
    simp only [List.cons.injEq, and_true] at a2
    rw [← a2, ← this]
    rw [← a2, ← this] at k2
    exact k2
  obtain ⟨l, l1, l2, l3⟩ := bestLabel_spec hq.ordered hq.beats (t := F) F4 hpos (fun x hx => o2.1 _ (List.mem_of_getElem? (hen _ hx)))
  obtain ⟨y, y1, y2⟩ := optimum_of_label hq h hv l2 o2 (hen l l2) (fun l' b' h1 h2 => by
    rw [hen l' h1] at h2
    cases h2
    exact l3 (fun _ => l) (fun _ => l') rfl h1)
  refine ⟨l, y, ?_, y1, y2⟩
  unfold setFromMarginal
  rw [confAt_get (by rw [hlen]; exact hv), hu]
  simp only
  rw [o1]
  simp only
  rw [F1]
  simp only [Option.bind_some]
  rw [l1]

/-! ### Variables with a clearly best label -/

theorem uniqueFrom_spec {out : List V} (hP : ∀ b ∈ out, P b) : ∀ (n i : Nat) (s : V × Nat × Bool), i + n ≤ out.length → s.2.1 < i → out[s.2.1]? = some s.1 →
    (∀ j b, j < i → j ≠ s.2.1 → out[j]? = some b → (q.bop s.1 b = true ∨ q.close b s.1 = true) ∧ (s.2.2 = true → q.bop s.1 b = true)) →
    ∃ s', uniqueFrom q out n i s = some s' ∧ s'.2.1 < i + n ∧ out[s'.2.1]? = some s'.1 ∧
      (s'.2.2 = true → ∀ j b, j < i + n → j ≠ s'.2.1 → out[j]? = some b → q.bop s'.1 b = true)
  | 0, i, s, _, h1, h2, h3 => ⟨s, rfl, h1, h2, fun hu j b hj hne hb => (h3 j b hj hne hb).2 hu⟩
  | n + 1, i, s, hl, h1, h2, h3 => by
    have hi : i < out.length := by omega
    unfold uniqueFrom
    rw [List.getElem?_eq_getElem hi]
    simp only
    have hb : out[i]? = some out[i] := List.getElem?_eq_getElem hi
    generalize out[i] = b at hb
    obtain ⟨value, state, unique⟩ := s
    simp only at h1 h2 h3 ⊢
    have e : i + (n + 1) = i + 1 + n := by omega
    rw [e]
    by_cases hc : q.close b value = true
    · rw [if_pos hc]
      refine uniqueFrom_spec hP n (i + 1) _ (by omega) (by simp only; omega) h2 ?_
      intro j b' hj hne hb'
      simp only [Bool.false_eq_true, false_implies, and_true] at hne ⊢
      by_cases hji : j = i
      · subst hji
        rw [hb] at hb'
        cases hb'
        exact Or.inr hc
      · exact (h3 j b' (by omega) hne hb').1
    · rw [if_neg hc]
      rw [Bool.not_eq_true] at hc
      by_cases hbo : q.bop b value = true
      · rw [if_pos hbo]
        refine uniqueFrom_spec hP n (i + 1) _ (by omega) (by simp only; omega) hb ?_
        intro j b' hj hne hb'
        simp only at hne ⊢
        have key : q.bop b b' = true := by
          by_cases hjs : j = state
          · subst hjs
            rw [h2] at hb'
            cases hb'
            exact hbo
          · rcases (h3 j b' (by omega) hjs hb').1 with h' | h'
            · exact hq.ordered.order.trans _ _ _ hbo h'
            · exact hq.near.convex _ _ _ (hP _ (List.mem_of_getElem? hb')) (hP _ (List.mem_of_getElem? hb)) (hP _ (List.mem_of_getElem? h2)) h' hc hbo
        exact ⟨Or.inl key, fun _ => key⟩
      · rw [if_neg hbo]
        rw [Bool.not_eq_true] at hbo
        refine uniqueFrom_spec hP n (i + 1) _ (by omega) (by simp only; omega) h2 ?_
        intro j b' hj hne hb'
        simp only at hne ⊢
        by_cases hji : j = i
        · subst hji
          rw [hb] at hb'
          cases hb'
          have : q.bop value b = true := by
            by_contra hn
            rw [Bool.not_eq_true] at hn
            have := hq.ordered.total _ _ hbo hn
            rw [this, hq.near.refl _ (hP _ (List.mem_of_getElem? h2))] at hc
            cases hc
          exact ⟨Or.inl this, fun _ => this⟩
        · exact h3 j b' (by omega) hne hb'

/-- A clearly best label of `v` is the label of `v` in all optimal labelings. -/
theorem unique_label {v l : Nat} {out : List V} (hv : v < p.numLabels.length) (hl : l < p.numLabels.getD v 0)
    (he : Exact q.o q.bop q.accNeutral P p [v] ((List.range (p.numLabels.getD v 0)).map (fun l => [l])) out) {b : V} (hb : out[l]? = some b)
    (hbest : ∀ l' b', l' < p.numLabels.getD v 0 → l' ≠ l → out[l']? = some b' → q.bop b b' = true) {x : List Nat} (hx : p.Optimum q.o q.bop x) : x.getD v 0 = l := by
  by_contra hne
  have hxl : x.getD v 0 < p.numLabels.getD v 0 := (labeling_get.mp hx.1).2 v hv
  obtain ⟨⟨y, y1, y2, y3⟩, _⟩ := best_with_label hq h hv hl
  obtain ⟨_, h2⟩ := best_with_label hq h hv hxl
  have hlen := he.2.choose_spec.2.1
  have hxo : x.getD v 0 < out.length := by rw [hlen]; simpa using hxl
  have h3 := hbest _ _ hxl hne (List.getElem?_eq_getElem hxo)
  rw [← entry_order hq h he (range_entry hq h hl) hb (range_entry hq h hxl) (List.getElem?_eq_getElem hxo), y3] at h3
  have h4 := not_better_trans hq.ordered.order hq.ordered.total (hx.2 y y1) (h2 x hx.1 rfl)
  rw [h4] at h3
  cases h3

theorem knownLoop_spec : ∀ {vs : List Nat}, (∀ v ∈ vs, v < p.numLabels.length) →
    ∃ known, knownLoop q m vs = some known ∧ (known.map (fun e => e.1)).Sublist vs ∧ ∀ e ∈ known, ∀ x, p.Optimum q.o q.bop x → x.getD e.1 0 = e.2
  | [], _ => ⟨[], rfl, by simp, by simp⟩
  | v :: vs, hr => by
    have hv := hr v List.mem_cons_self
    obtain ⟨known, k1, k2, k3⟩ := knownLoop_spec (vs := vs) (fun w hw => hr w (List.mem_cons_of_mem _ hw))
    obtain ⟨out, o1, o2⟩ := h.marginal v hv
    have hol := o2.2.choose_spec.2.1
    simp only [List.length_map, List.length_range] at hol
    have hpos : 0 < p.numLabels.getD v 0 := h.positive _ (by simp [List.getD, hv])
    have h0 : 0 < out.length := by omega
    obtain ⟨s, s1, s2, s3, s4⟩ := uniqueFrom_spec hq h (out := out) o2.1 (p.numLabels.getD v 0 - 1) 1 (out[0], 0, true) (by omega) (by simp) (List.getElem?_eq_getElem h0) (by
      intro j b hj hne
      simp only at hne
      omega)
    have e1 : 1 + (p.numLabels.getD v 0 - 1) = p.numLabels.getD v 0 := by omega
    rw [e1] at s2 s4
    have hn : m.gm.numLabels[v]? = some (p.numLabels.getD v 0) := by rw [h.represents.labels]; simp [List.getD, hv]
    refine ⟨if s.2.2 then (v, s.2.1) :: known else known, ?_, ?_, ?_⟩
    · unfold knownLoop
      rw [o1, hn]
      simp only
      rw [List.getElem?_eq_getElem h0]
      simp only
      rw [s1]
      simp only
      rw [k1]
      rfl
    · split
      · exact List.Sublist.cons_cons _ k2
      · exact List.Sublist.cons _ k2
    · intro e he x hx
      split at he
      · rename_i hu
        rcases List.mem_cons.mp he with rfl | he
        · exact unique_label hq h hv s2 o2 s3 (fun l' b' h1 h2 h3 => s4 hu l' b' h1 h2 h3) hx
        · exact k3 e he x hx
      · exact k3 e he x hx

/-! ### Labels from the marginal of a factor -/

theorem restrict_eq_map (nl vs : List Nat) : restrict nl vs = vs.map (labelsOf nl) := rfl

theorem pick_factor {conf : List (Option Nat)} {w f : Nat} {t : Term V} (ht : p.terms[f]? = some t) (hw : w ∈ t.vars) (hlen : conf.length = p.numLabels.length) (hu : confAt conf w = none)
    {x : List Nat} (hx : p.Labeling x) (hxc : Consistent (confAt conf) x) :
    ∃ l y, chooseLabel q m conf w f = some l ∧ p.Labeling y ∧ y.getD w 0 = l ∧ (∀ v ∈ t.vars, ∀ k, confAt conf v = some k → y.getD v 0 = k) ∧
      ∀ u, p.Labeling u → (∀ v ∈ t.vars, ∀ k, confAt conf v = some k → u.getD v 0 = k) → q.bop (p.energy q.o u) (p.energy q.o y) = false := by
  have hr := h.represents
  have hN := MessagePassing.net_of_represents hr
  have hlab : m.gm.numLabels = p.numLabels := hr.labels
  have hfl : f < m.gm.factors.length := by rw [hr.factors.length_eq]; exact (List.getElem?_eq_some_iff.mp ht).1
  have hrec := List.getElem?_eq_getElem hfl
  obtain ⟨t', ht', hm⟩ := MessagePassing.factor_matches hr hrec
  rw [ht] at ht'
  cases ht'
  have hrange := h.range t (List.mem_of_getElem? ht)
  obtain ⟨out, o1, o2⟩ := h.factorMarginal f t ht (List.ne_nil_of_mem hw)
  have hol := o2.2.choose_spec.2.1
  have hsc := MessagePassing.scopeOf_term ht
  have hxg := labeling_get.mp hx
  obtain ⟨z, z1, z2, z3, z4⟩ := chooseLabel_spec hq.ordered hq.neutral hq.beats hq.one (m := m) (conf := conf) (w := w) (f := f) (out := out) (hN.adj w (by rw [hlab]; exact hrange w hw))
    (hN.nodupV w) ((hN.mem w f).mpr (by rw [hsc]; exact hw)) hrec hm.scope hm.sorted (by rw [hlab]; exact hrange) (by rw [hlab]; exact h.positive) (by rw [hlab]; exact hlen) hw o1
    (by rw [hlab]; exact hol) o2.1 (by
      intro v l hv hc
      rw [hlab, ← hxc v l hc]
      exact hxg.2 v (hrange v hv)) hu
  rw [hlab] at z2 z4
  -- a labeling with these labels
  have hin : ∀ y : Nat → Nat, Labels (labelsOf p.numLabels) t.vars y → InShape (restrict p.numLabels t.vars) (t.vars.map y) := by
    intro y
    have : ∀ vs : List Nat, (∀ v ∈ vs, y v < labelsOf p.numLabels v) → InShape (vs.map (labelsOf p.numLabels)) (vs.map y) := by
      intro vs
      induction vs with
      | nil => intro _; trivial
      | cons v vs ih => intro h; exact ⟨h v List.mem_cons_self, ih (fun w hw => h w (List.mem_cons_of_mem _ hw))⟩
    exact this t.vars
  have hex : ∃ y, p.Labeling y ∧ restrict y t.vars = t.vars.map z := by
    have e : ∀ u, u < p.numLabels.length → ((List.range p.numLabels.length).map (fun u => if u ∈ t.vars then z u else x.getD u 0)).getD u 0 = if u ∈ t.vars then z u else x.getD u 0 := by
      intro u hu; simp [List.getD, hu]
    refine ⟨(List.range p.numLabels.length).map (fun u => if u ∈ t.vars then z u else x.getD u 0), ?_, ?_⟩
    · rw [labeling_get]
      refine ⟨by simp, fun u hu => ?_⟩
      rw [e u hu]
      split
      · rename_i hut; exact z2 u hut
      · exact hxg.2 u hu
    · unfold restrict
      apply List.map_congr_left
      intro u hut
      rw [e u (hrange u hut), if_pos hut]
  obtain ⟨⟨y, y1, y2, y3⟩, _⟩ := marginal_best (o := q.o) hq.ordered.order hq.ordered.total hq.neutral hex
  have hyz : ∀ v ∈ t.vars, y.getD v 0 = z v := fun v hv => (List.map_inj_left.mp y2) v hv
  refine ⟨z w, y, z1, y1, hyz w hw, ?_, ?_⟩
  · intro v hv c hc
    rw [hyz v hv]
    exact z3 v hv c hc
  · intro u hu huc
    have hug := labeling_get.mp hu
    have huL : Labels (labelsOf p.numLabels) t.vars (fun v => u.getD v 0) := fun v hv => hug.2 v (hrange v hv)
    obtain ⟨_, x2⟩ := marginal_best (p := p) (o := q.o) (vs := t.vars) (t := restrict u t.vars) hq.ordered.order hq.ordered.total hq.neutral ⟨u, hu, rfl⟩
    obtain ⟨k, k1, k2, _⟩ := entry_spec (zero := q.zero) hol (hin _ huL)
    obtain ⟨k', k1', k2', _⟩ := entry_spec (zero := q.zero) hol (hin _ z2)
    have hcmp := z4 (fun v => u.getD v 0) huL huc
    have hord := entry_order hq h o2 k1 k2 k1' k2'
    rw [restrict_eq_map hq h p.numLabels t.vars, hcmp, y3] at hord
    exact not_better_trans hq.ordered.order hq.ordered.total (x2 u hu rfl) hord

end

end OpenGM.Mode
