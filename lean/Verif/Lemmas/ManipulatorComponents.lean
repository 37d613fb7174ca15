import Verif.Lemmas.ManipulatorModel
import Mathlib.Logic.Relation
/-
GraphicalModelManipulator: `expand` finds the connected components of the free variables.
-/
namespace OpenGM
open Spec Relation
namespace Manipulator
variable {V : Type}

/-- Two variables share a term. -/
def Nbr (p : Problem V) (v w : Nat) : Prop := ∃ t ∈ p.terms, v ∈ t.vars ∧ w ∈ t.vars

theorem Nbr.symm {p : Problem V} {v w : Nat} (h : Nbr p v w) : Nbr p w v := by
  obtain ⟨t, h1, h2, h3⟩ := h
  exact ⟨t, h1, h3, h2⟩

theorem scope_of_term {gm : GM V} {p : Problem V} (h : Represents gm p) {j : Nat} {t : Term V} (ht : p.terms[j]? = some t) :
    ∃ f, gm.factors[j]? = some f ∧ gm.scope f = t.vars ∧ FactorMatches gm f t := by
  have hlen := h.factors.length_eq
  have hj : j < p.terms.length := (List.getElem?_eq_some_iff.mp ht).1
  have hj' : j < gm.factors.length := by omega
  have := List.forall₂_iff_get.mp h.factors
  have h2 := this.2 j hj' hj
  obtain ⟨h3, h4⟩ := List.getElem?_eq_some_iff.mp ht
  simp only [List.get_eq_getElem] at h2
  rw [h4] at h2
  exact ⟨_, List.getElem?_eq_getElem hj', h2.scope, h2⟩

theorem expandOrder_spec {gm : GM V} {p : Problem V} (h : Represents gm p) {v : Nat} (hv : v < p.numLabels.length) :
    ∃ ws, expandOrder gm v = some ws ∧ ∀ w, w ∈ ws ↔ Nbr p v w := by
  have hadj := h.adj v (by rw [h.labels]; exact hv)
  unfold expandOrder
  rw [hadj]
  simp only
  have hm : ((List.range p.terms.length).filter (mentions p.terms v)).mapM (fun fi => (gm.factors[fi]?).map gm.scope) =
      some (((List.range p.terms.length).filter (mentions p.terms v)).map (fun fi => ((p.terms[fi]?).map (fun t => t.vars)).getD [])) := by
    apply mapM_eq_some_map
    intro j hj
    have hj' := List.mem_range.mp (List.mem_of_mem_filter hj)
    obtain ⟨f, h1, h2, _⟩ := scope_of_term h (List.getElem?_eq_getElem hj')
    rw [h1, Option.map_some, h2, List.getElem?_eq_getElem hj']
    rfl
  rw [hm]
  refine ⟨_, rfl, ?_⟩
  intro w
  simp only [List.mem_flatten, List.mem_map, List.mem_filter, List.mem_range]
  constructor
  · rintro ⟨l, ⟨j, ⟨hj, hmen⟩, rfl⟩, hw⟩
    rw [List.getElem?_eq_getElem hj] at hw
    simp only [mentions, List.getElem?_eq_getElem hj, decide_eq_true_eq] at hmen
    exact ⟨p.terms[j], List.getElem_mem hj, hmen, by simpa using hw⟩
  · rintro ⟨t, ht, hv', hw⟩
    obtain ⟨j, hj⟩ := List.getElem?_of_mem ht
    have hlt := (List.getElem?_eq_some_iff.mp hj).1
    exact ⟨t.vars, ⟨j, ⟨hlt, by simp [mentions, hj, hv']⟩, by simp [hj]⟩, hw⟩

theorem nbr_lt {gm : GM V} {p : Problem V} (h : Represents gm p) {v w : Nat} (hn : Nbr p v w) : w < p.numLabels.length := by
  obtain ⟨t, ht, _, hw⟩ := hn
  obtain ⟨j, hj⟩ := List.getElem?_of_mem ht
  obtain ⟨f, _, _, hm⟩ := scope_of_term h hj
  have := hm.range w hw
  rwa [h.labels] at this

/-- Effect of a (partial) expansion with number `ccn` from `root`. -/
structure Post (p : Problem V) (fix : List (Option Nat)) (ccn root : Nat) (st st' : List Bool × List Nat) : Prop where
  len1 : st'.1.length = st.1.length
  len2 : st'.2.length = st.2.length
  mono : ∀ v : Nat, st.1[v]? = some true → st'.1[v]? = some true
  new : ∀ v : Nat, st.1[v]? = some false → st'.1[v]? = some true →
    st'.2[v]? = some ccn ∧ (∀ w, Nbr p v w → st'.1[w]? = some true) ∧ ReflTransGen (FreeNeighbours p fix) root v
  old : ∀ v : Nat, st.1[v]? = some true ∨ st'.1[v]? = some false → st'.2[v]? = st.2[v]?

theorem Post.refl (p : Problem V) (fix : List (Option Nat)) (ccn root : Nat) (st : List Bool × List Nat) : Post p fix ccn root st st :=
  ⟨rfl, rfl, fun _ h => h, fun v h h' => by rw [h] at h'; simp at h', fun _ _ => rfl⟩

theorem closed_cases {l l' : List Bool} (hl : l'.length = l.length) {v : Nat} (h : l'[v]? = some true ∨ l'[v]? = some false) :
    l[v]? = some true ∨ l[v]? = some false := by
  have hlt : v < l.length := by
    rw [← hl]
    rcases h with h | h
    · exact (List.getElem?_eq_some_iff.mp h).1
    · exact (List.getElem?_eq_some_iff.mp h).1
  rw [List.getElem?_eq_getElem hlt]
  cases l[v] <;> simp

theorem Post.trans {p : Problem V} {fix : List (Option Nat)} {ccn root : Nat} {a b c : List Bool × List Nat}
    (h1 : Post p fix ccn root a b) (h2 : Post p fix ccn root b c) : Post p fix ccn root a c where
  len1 := by rw [h2.len1, h1.len1]
  len2 := by rw [h2.len2, h1.len2]
  mono := fun v h => h2.mono v (h1.mono v h)
  new := by
    intro v ha hc
    rcases closed_cases h2.len1 (Or.inl hc) with hb | hb
    · obtain ⟨e1, e2, e3⟩ := h1.new v ha hb
      exact ⟨by rw [h2.old v (Or.inl hb), e1], fun w hw => h2.mono w (e2 w hw), e3⟩
    · exact h2.new v hb hc
  old := by
    intro v h
    rcases h with h | h
    · rw [h2.old v (Or.inl (h1.mono v h)), h1.old v (Or.inl h)]
    · rw [h2.old v (Or.inr h), h1.old v]
      right
      rcases closed_cases h2.len1 (Or.inr h) with hb | hb
      · rw [h2.mono v hb] at h; simp at h
      · exact hb

theorem count_le {l l' : List Bool} (hl : l'.length = l.length) (hm : ∀ v : Nat, l[v]? = some true → l'[v]? = some true) :
    l'.count false ≤ l.count false := by
  induction l generalizing l' with
  | nil =>
    cases l' with
    | nil => simp
    | cons _ _ => simp at hl
  | cons a l ih =>
    cases l' with
    | nil => simp at hl
    | cons a' l' =>
      have := ih (l' := l') (by simpa using hl) (fun v h => by simpa using hm (v + 1) (by simpa using h))
      have h0 := hm 0
      cases a <;> cases a' <;> simp at h0 ⊢ <;> omega

theorem count_set_lt {l : List Bool} {v : Nat} (h : l[v]? = some false) : (l.set v true).count false < l.count false := by
  induction l generalizing v with
  | nil => simp at h
  | cons a l ih =>
    cases v with
    | zero =>
      simp only [List.getElem?_cons_zero, Option.some.injEq] at h
      subst h
      simp
    | succ v =>
      have := ih (v := v) (by simpa using h)
      cases a <;> simp <;> omega

/-- States during the search: open variables are free. -/
structure Good (p : Problem V) (fix : List (Option Nat)) (st : List Bool × List Nat) : Prop where
  len1 : st.1.length = p.numLabels.length
  len2 : st.2.length = p.numLabels.length
  open_ : ∀ v : Nat, st.1[v]? = some false → Free fix v

theorem Good.post {p : Problem V} {fix : List (Option Nat)} {ccn root : Nat} {st st' : List Bool × List Nat} (h : Good p fix st)
    (hp : Post p fix ccn root st st') : Good p fix st' where
  len1 := by rw [hp.len1, h.len1]
  len2 := by rw [hp.len2, h.len2]
  open_ := by
    intro v hv
    rcases closed_cases hp.len1 (Or.inr hv) with hb | hb
    · rw [hp.mono v hb] at hv; simp at hv
    · exact h.open_ v hb

theorem expand_spec {gm : GM V} {p : Problem V} (h : Represents gm p) (fix : List (Option Nat)) (ccn root : Nat) :
    ∀ (fuel var : Nat) (st : List Bool × List Nat), Good p fix st → st.1.count false < fuel → var < p.numLabels.length →
    (st.1[var]? = some false → ReflTransGen (FreeNeighbours p fix) root var) →
    ∃ st', expand gm ccn fuel var st = some st' ∧ Post p fix ccn root st st' ∧ st'.1[var]? = some true := by
  intro fuel
  induction fuel with
  | zero => intro var st _ hf; omega
  | succ fuel ih =>
    intro var st hg hf hvar hconn
    have hlt : var < st.1.length := by rw [hg.len1]; exact hvar
    unfold expand
    cases hc : st.1[var] with
    | true =>
      have : st.1[var]? = some true := by rw [List.getElem?_eq_getElem hlt, hc]
      rw [this]
      exact ⟨st, rfl, Post.refl _ _ _ _ _, this⟩
    | false =>
      have hop : st.1[var]? = some false := by rw [List.getElem?_eq_getElem hlt, hc]
      rw [hop]
      simp only
      rw [setAt_of_lt _ (by rw [hg.len2]; exact hvar)]
      obtain ⟨ws, hws, hmem⟩ := expandOrder_spec h hvar
      simp only [hws]
      have hroot := hconn hop
      have hfreev := hg.open_ var hop
      -- the loop over the neighbours
      have loop : ∀ (us : List Nat) (s : List Bool × List Nat), (∀ u ∈ us, Nbr p var u) → Good p fix s → s.1.count false < fuel →
          ∃ s', us.foldlM (fun st w => expand gm ccn fuel w st) s = some s' ∧ Post p fix ccn root s s' ∧
            ∀ u ∈ us, s'.1[u]? = some true := by
        intro us
        induction us with
        | nil => intro s _ _ _; exact ⟨s, rfl, Post.refl _ _ _ _ _, by simp⟩
        | cons u us ihu =>
          intro s hn hgs hcs
          have hnu := hn u (by simp)
          obtain ⟨s1, e1, e2, e3⟩ := ih u s hgs hcs (nbr_lt h hnu) (by
            intro hopen
            obtain ⟨t, h1, h2, h3⟩ := hnu
            exact hroot.tail ⟨hfreev, hgs.open_ u hopen, t, h1, h2, h3⟩)
          have hg1 := hgs.post e2
          have hc1 := count_le e2.len1 e2.mono
          obtain ⟨s2, e4, e5, e6⟩ := ihu s1 (fun x hx => hn x (by simp [hx])) hg1 (by omega)
          refine ⟨s2, ?_, e2.trans e5, ?_⟩
          · rw [List.foldlM_cons, e1]
            exact e4
          · intro x hx
            rcases List.mem_cons.mp hx with rfl | hx
            · exact e5.mono _ e3
            · exact e6 x hx
      have hgs1 : Good p fix (st.1.set var true, st.2.set var ccn) := by
        refine ⟨by simp [hg.len1], by simp [hg.len2], ?_⟩
        intro v hv
        by_cases hvv : v = var
        · subst hvv
          simp only at hv
          rw [List.getElem?_set_self hlt] at hv
          simp at hv
        · simp only at hv
          rw [List.getElem?_set_ne (Ne.symm hvv)] at hv
          exact hg.open_ v hv
      have hcnt := count_set_lt hop
      obtain ⟨st', e1, e2, e3⟩ := loop ws (st.1.set var true, st.2.set var ccn) (fun u hu => (hmem u).mp hu) hgs1 (by simp only; omega)
      have hclosed : st'.1[var]? = some true := e2.mono var (by simp only; rw [List.getElem?_set_self hlt])
      refine ⟨st', e1, ⟨by rw [e2.len1]; simp, by rw [e2.len2]; simp, ?_, ?_, ?_⟩, hclosed⟩
      · intro v hv
        apply e2.mono
        by_cases hvv : v = var
        · subst hvv; simp only; rw [List.getElem?_set_self hlt]
        · simp only; rw [List.getElem?_set_ne (Ne.symm hvv)]; exact hv
      · intro v hv hv'
        by_cases hvv : v = var
        · subst hvv
          refine ⟨?_, fun w hw => e3 w ((hmem w).mpr hw), hroot⟩
          rw [e2.old v (Or.inl (by simp only; rw [List.getElem?_set_self hlt]))]
          simp only
          rw [List.getElem?_set_self (by rw [hg.len2]; exact hvar)]
        · exact e2.new v (by simp only; rw [List.getElem?_set_ne (Ne.symm hvv)]; exact hv) hv'
      · intro v hv
        by_cases hvv : v = var
        · subst hvv
          rcases hv with hv | hv
          · rw [hop] at hv; simp at hv
          · rw [hclosed] at hv; simp at hv
        · rw [e2.old v]
          · simp only; rw [List.getElem?_set_ne (Ne.symm hvv)]
          · rcases hv with hv | hv
            · left; simp only; rw [List.getElem?_set_ne (Ne.symm hvv)]; exact hv
            · right; exact hv

/-- State of the loop over the variables. -/
structure CompInv (p : Problem V) (fix : List (Option Nat)) (count : Nat) (st : List Bool × List Nat) : Prop where
  good : Good p fix st
  fixed : ∀ v : Nat, v < p.numLabels.length → ¬ Free fix v → st.1[v]? = some true
  nbr : ∀ v : Nat, Free fix v → st.1[v]? = some true → ∀ w, Nbr p v w → Free fix w → st.1[w]? = some true ∧ st.2[w]? = st.2[v]?
  root : ∃ root : Nat → Nat, (∀ s, s < count → Free fix (root s) ∧ st.1[root s]? = some true ∧ st.2[root s]? = some s) ∧
    ∀ v : Nat, Free fix v → st.1[v]? = some true → ∃ s, s < count ∧ st.2[v]? = some s ∧ ReflTransGen (FreeNeighbours p fix) (root s) v

theorem componentsLoop_spec {gm : GM V} {p : Problem V} (h : Represents gm p) {fix : List (Option Nat)} :
    ∀ (k var count : Nat) (st : List Bool × List Nat), var + k = p.numLabels.length → CompInv p fix count st →
    (∀ v, v < var → st.1[v]? = some true) →
    ∃ count' st', componentsLoop gm var k count st = some (count', st') ∧ CompInv p fix count' st' ∧
      (∀ v, v < p.numLabels.length → st'.1[v]? = some true) ∧ count ≤ count' := by
  intro k
  induction k with
  | zero =>
    intro var count st hv hinv hcl
    exact ⟨count, st, rfl, hinv, fun v hv' => hcl v (by omega), Nat.le_refl _⟩
  | succ k ih =>
    intro var count st hv hinv hcl
    have hlt : var < st.1.length := by rw [hinv.good.len1]; omega
    unfold componentsLoop
    cases hc : st.1[var] with
    | true =>
      have hcv : st.1[var]? = some true := by rw [List.getElem?_eq_getElem hlt, hc]
      rw [hcv]
      apply ih (var + 1) count st (by omega) hinv
      intro v hv'
      by_cases hvv : v = var
      · rw [hvv, hcv]
      · exact hcl v (by omega)
    | false =>
      have hop : st.1[var]? = some false := by rw [List.getElem?_eq_getElem hlt, hc]
      rw [hop]
      simp only
      have hcount : st.1.count false < gm.numberOfVariables + 1 := by
        have := List.count_le_length (a := false) (l := st.1)
        rw [hinv.good.len1, ← h.labels] at this
        unfold GM.numberOfVariables
        omega
      obtain ⟨st', e1, e2, e3⟩ := expand_spec h fix count var (gm.numberOfVariables + 1) var st hinv.good hcount (by omega)
        (fun _ => ReflTransGen.refl)
      rw [e1]
      simp only
      have hinv' : CompInv p fix (count + 1) st' := by
        refine ⟨hinv.good.post e2, fun v hv hf => e2.mono v (hinv.fixed v hv hf), ?_, ?_⟩
        · intro v hfv hcv w hw hfw
          rcases closed_cases e2.len1 (Or.inl hcv) with hb | hb
          · obtain ⟨h1, h2⟩ := hinv.nbr v hfv hb w hw hfw
            exact ⟨e2.mono w h1, by rw [e2.old w (Or.inl h1), e2.old v (Or.inl hb), h2]⟩
          · obtain ⟨h1, h2, _⟩ := e2.new v hb hcv
            have hw' := h2 w hw
            refine ⟨hw', ?_⟩
            rcases closed_cases e2.len1 (Or.inl hw') with hbw | hbw
            · have := (hinv.nbr w hfw hbw v hw.symm hfv).1
              rw [hb] at this
              simp at this
            · rw [h1, (e2.new w hbw hw').1]
        · obtain ⟨root, hr1, hr2⟩ := hinv.root
          refine ⟨fun s => if s = count then var else root s, ?_, ?_⟩
          · intro s hs
            by_cases hsc : s = count
            · subst hsc
              simp only [if_true]
              exact ⟨hinv.good.open_ var hop, e3, (e2.new var hop e3).1⟩
            · simp only [hsc, if_false]
              obtain ⟨h1, h2, h3⟩ := hr1 s (by omega)
              exact ⟨h1, e2.mono _ h2, by rw [e2.old _ (Or.inl h2), h3]⟩
          · intro v hfv hcv
            rcases closed_cases e2.len1 (Or.inl hcv) with hb | hb
            · obtain ⟨s, h1, h2, h3⟩ := hr2 v hfv hb
              refine ⟨s, by omega, by rw [e2.old v (Or.inl hb), h2], ?_⟩
              simp only [show s ≠ count by omega, if_false]
              exact h3
            · obtain ⟨h1, _, h3⟩ := e2.new v hb hcv
              exact ⟨count, by omega, h1, by simpa using h3⟩
      obtain ⟨count', st'', f1, f2, f3, f4⟩ := ih (var + 1) (count + 1) st' (by omega) hinv' (by
        intro v hv'
        by_cases hvv : v = var
        · rw [hvv, e3]
        · exact e2.mono v (hcl v (by omega)))
      exact ⟨count', st'', f1, f2, f3, by omega⟩

theorem free_iff {fix : List (Option Nat)} {v : Nat} : Free fix v ↔ v < fix.length ∧ isFree fix v = true := by
  unfold Free
  constructor
  · intro h
    exact ⟨(List.getElem?_eq_some_iff.mp h).1, by simp [isFree, fx, h]⟩
  · rintro ⟨h1, h2⟩
    exact fx_none h1 (by simpa [isFree] using h2)

/-- What the search for components establishes. -/
structure Components (p : Problem V) (fix : List (Option Nat)) (count : Nat) (v2s : List Nat) : Prop where
  len : v2s.length = p.numLabels.length
  lt : ∀ v, Free fix v → ∃ s, s < count ∧ v2s[v]? = some s
  used : ∀ s, s < count → ∃ v, Free fix v ∧ v2s[v]? = some s
  connected : ∀ v w, Free fix v → Free fix w → (v2s[v]? = v2s[w]? ↔ ReflTransGen (FreeNeighbours p fix) v w)

theorem components_spec {gm : GM V} {p : Problem V} (h : Represents gm p) {fix : List (Option Nat)} {fv : List Bool} {fl v2s : List Nat}
    (he : Encodes fv fl fix) (hlen : fix.length = p.numLabels.length) (hv2s : v2s.length = p.numLabels.length) :
    ∃ count closed v2s', componentsLoop gm 0 gm.numberOfVariables 0 (fv, v2s) = some (count, (closed, v2s')) ∧
      Components p fix count v2s' := by
  have hn : gm.numberOfVariables = p.numLabels.length := by unfold GM.numberOfVariables; rw [h.labels]
  have hstart : CompInv p fix 0 (fv, v2s) := by
    have hnot : ∀ v : Nat, Free fix v → fv[v]? = some true → False := by
      intro v hf hc
      rw [he.free v hf] at hc
      simp at hc
    refine ⟨⟨by rw [← hlen]; exact he.lenV, hv2s, ?_⟩, ?_, fun v hf hc => (hnot v hf hc).elim, fun s => s, by simp,
      fun v hf hc => (hnot v hf hc).elim⟩
    · intro v hv
      have hlt : v < fix.length := by
        have := (List.getElem?_eq_some_iff.mp hv).1
        rw [he.lenV] at this
        exact this
      unfold Free
      cases hf : fx fix v with
      | none => exact fx_none hlt hf
      | some l =>
        have := (he.fixed v l (fx_some hf)).1
        simp only at hv
        rw [hv] at this
        simp at this
    · intro v hv hf
      cases hfx : fx fix v with
      | none => exact absurd (fx_none (by omega) hfx) hf
      | some l => exact (he.fixed v l (fx_some hfx)).1
  obtain ⟨count, ⟨closed, v2s'⟩, e1, e2, e3, _⟩ := componentsLoop_spec h gm.numberOfVariables 0 0 (fv, v2s) (by omega) hstart (by simp)
  refine ⟨count, closed, v2s', e1, e2.good.len2, ?_, ?_, ?_⟩
  · intro v hf
    obtain ⟨root, _, hr2⟩ := e2.root
    obtain ⟨s, h1, h2, _⟩ := hr2 v hf (e3 v (by rw [← hlen]; exact (free_iff.mp hf).1))
    exact ⟨s, h1, h2⟩
  · intro s hs
    obtain ⟨root, hr1, _⟩ := e2.root
    obtain ⟨h1, _, h3⟩ := hr1 s hs
    exact ⟨root s, h1, h3⟩
  · intro v w hv hw
    constructor
    · intro heq
      obtain ⟨root, _, hr2⟩ := e2.root
      obtain ⟨s, _, h2, h3⟩ := hr2 v hv (e3 v (by rw [← hlen]; exact (free_iff.mp hv).1))
      obtain ⟨s', _, h2', h3'⟩ := hr2 w hw (e3 w (by rw [← hlen]; exact (free_iff.mp hw).1))
      have : s = s' := by
        simp only at h2 h2'
        rw [h2, h2'] at heq
        simpa using heq
      subst this
      have hsym : ∀ a b, ReflTransGen (FreeNeighbours p fix) a b → ReflTransGen (FreeNeighbours p fix) b a := by
        intro a b hab
        induction hab with
        | refl => exact ReflTransGen.refl
        | tail _ hbc ih =>
          refine ReflTransGen.head ?_ ih
          obtain ⟨g1, g2, t, g3, g4, g5⟩ := hbc
          exact ⟨g2, g1, t, g3, g5, g4⟩
      exact (hsym _ _ h3).trans h3'
    · intro hconn
      induction hconn with
      | refl => rfl
      | tail _ hbc ih =>
        rename_i b c _
        obtain ⟨g1, g2, t, g3, g4, g5⟩ := hbc
        rw [ih g1]
        exact ((e2.nbr b g1 (e3 b (by rw [← hlen]; exact (free_iff.mp g1).1)) c ⟨t, g3, g4, g5⟩ g2).2).symm

end Manipulator
end OpenGM
