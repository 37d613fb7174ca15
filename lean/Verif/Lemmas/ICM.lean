import Verif.Model.ICM
import Verif.Lemmas.MoveOptimal
import Verif.Lemmas.FactorGraph
import Verif.Props.FactorGraph
/-
Lemmas about the model of ICM.
-/
namespace OpenGM
open Spec
variable {V : Type}

/-- Algebra and order fit together (sums; products of positive numbers). -/
structure IcmContext (o : InvOperation V) (bop : V → V → Bool) : Prop where
  comm : o.toOperation.IsCommMonoid
  order : StrictOrder bop
  reflects : Reflects o.toOperation bop
  preserves : Preserves o.toOperation bop

namespace Icm
open Movemaker (part Tracks covers_touched eq_fill_of_agree restrict_inRange agree_fill)

/-- Sorted list of the terms that mention one of the variables. -/
def termsOf (p : Problem V) (vars : List Nat) : List Nat :=
  (List.range p.terms.length).filter (fun f => vars.any (fun v => mentions p.terms v f))

theorem mem_termsOf {p : Problem V} {vars : List Nat} (f : Nat) :
    f ∈ termsOf p vars ↔ f ∈ ([] : List Nat) ∨ ∃ v ∈ vars, mentions p.terms v f = true := by
  simp only [termsOf, List.mem_filter, List.mem_range, List.any_eq_true, List.not_mem_nil, false_or]
  exact ⟨fun h => h.2, fun h => ⟨by obtain ⟨v, _, hm⟩ := h; exact mentions_lt hm, h⟩⟩

theorem covers_termsOf (p : Problem V) (vars x y : List Nat) (hy : AgreeOutside vars x y) : Covers p x y (termsOf p vars) :=
  covers_touched vars _ y (Movemaker.sorted_range_filter _ _) mem_termsOf hy.2

/-- Local optimality on `W` is unaffected by changes of variables that share no term with `W`. -/
theorem transfer {o : InvOperation V} {bop : V → V → Bool} (hc : IcmContext o bop) {p : Problem V} {W U x x' : List Nat}
    (hx : p.Labeling x) (hWn : W.Nodup) (hW : ∀ w ∈ W, w < p.numLabels.length) (hag : AgreeOutside U x x')
    (hsep : ∀ (f w u : Nat), w ∈ W → u ∈ U → mentions p.terms w f = true → mentions p.terms u f = false)
    (h : LocallyOptimal o.toOperation bop p W x) : LocallyOptimal o.toOperation bop p W x' := by
  intro z hz hza
  by_contra hcon
  have hWx : ∀ w ∈ W, w < x.length := fun w hw => by rw [hx.1]; exact hW w hw
  have hWz : ∀ w ∈ W, w < z.length := fun w hw => by rw [hz.1]; exact hW w hw
  have hir := restrict_inRange hz W hWz
  have hz0 := fill_labeling hx W _ hWn hWx hir
  have hz0a : AgreeOutside W x (fill x W (restrict z W)) := agree_fill _
  have e1 : part o p (termsOf p W) z = part o p (termsOf p W) (fill x W (restrict z W)) := by
    unfold part
    congr 1
    apply List.map_congr_left
    intro f hf
    apply termVal_congr
    intro u hu
    obtain ⟨w, hw, hm⟩ : ∃ w ∈ W, mentions p.terms w f = true := by
      rcases (mem_termsOf f).mp hf with hf | hf
      · simp at hf
      · exact hf
    have huU : u ∉ U := fun hcon => by
      have := hsep f w u hw hcon hm
      rw [hu] at this; simp at this
    by_cases huW : u ∈ W
    · obtain ⟨i, hi, rfl⟩ := List.getElem_of_mem huW
      have hzl := hWz _ huW
      rw [fill_at x W (restrict z W) i W[i] z[W[i]] hWn hWx (List.getElem?_eq_getElem hi)
        (by simp [restrict, List.getElem?_eq_getElem hi, List.getElem?_eq_getElem hzl]), List.getElem?_eq_getElem hzl]
    · rw [hza.2 u huW, hag.2 u huU, hz0a.2 u huW]
  have e2 : part o p (termsOf p W) x' = part o p (termsOf p W) x := by
    unfold part
    congr 1
    apply List.map_congr_left
    intro f hf
    apply termVal_congr
    intro u hu
    obtain ⟨w, hw, hm⟩ : ∃ w ∈ W, mentions p.terms w f = true := by
      rcases (mem_termsOf f).mp hf with hf | hf
      · simp at hf
      · exact hf
    have huU : u ∉ U := fun hcon => by
      have := hsep f w u hw hcon hm
      rw [hu] at this; simp at this
    exact hag.2 u huU
  rw [(covers_termsOf p W x' z hza).split hc.comm, (covers_termsOf p W x' x' ⟨rfl, fun _ _ => rfl⟩).split hc.comm] at hcon
  have hb := hc.reflects _ _ _ (by simpa using hcon)
  change bop (part o p (termsOf p W) z) (part o p (termsOf p W) x') = true at hb
  rw [e1, e2] at hb
  have hb2 := h _ hz0 hz0a
  rw [(covers_termsOf p W x _ hz0a).split hc.comm, (covers_termsOf p W x x ⟨rfl, fun _ _ => rfl⟩).split hc.comm] at hb2
  have := hc.preserves (total o.toOperation (((List.range p.terms.length).filter (fun f => decide (f ∉ termsOf p W))).map
    (termVal o.toOperation p x))) _ _ hb
  rw [this] at hb2
  simp at hb2

/-- Number of labelings better than `x`. -/
def rank (o : Operation V) (bop : V → V → Bool) (p : Problem V) (x : List Nat) : Nat :=
  (allTuples p.numLabels).countP (fun z => bop (p.energy o z) (p.energy o x))

theorem labeling_iff_InShape : ∀ (nl x : List Nat), InShape nl x ↔
    (x.length = nl.length ∧ ∀ v l n : Nat, x[v]? = some l → nl[v]? = some n → l < n)
  | [], [] => by simp [InShape]
  | [], _ :: _ => by simp [InShape]
  | _ :: _, [] => by simp [InShape]
  | n :: nl, l :: x => by
    simp only [InShape]
    rw [labeling_iff_InShape nl x]
    simp only [List.length_cons, Nat.add_right_cancel_iff]
    constructor
    · rintro ⟨h1, h2, h3⟩
      refine ⟨h2, ?_⟩
      intro v l' n' e1 e2
      cases v with
      | zero => simp at e1 e2; omega
      | succ v => exact h3 v l' n' (by simpa using e1) (by simpa using e2)
    · rintro ⟨h2, h3⟩
      exact ⟨h3 0 l n (by simp) (by simp), h2, fun v l' n' e1 e2 => h3 (v + 1) l' n' (by simpa using e1) (by simpa using e2)⟩

theorem mem_labelings {p : Problem V} {x : List Nat} : x ∈ allTuples p.numLabels ↔ p.Labeling x := by
  rw [mem_allTuples, labeling_iff_InShape]; rfl

theorem countP_lt {α : Type} (l : List α) (P Q : α → Bool) (himp : ∀ a ∈ l, P a = true → Q a = true) (b : α) (hb : b ∈ l)
    (h1 : P b = false) (h2 : Q b = true) : l.countP P < l.countP Q := by
  induction l with
  | nil => simp at hb
  | cons a l ih =>
    rw [List.countP_cons, List.countP_cons]
    have hle : l.countP P ≤ l.countP Q := List.countP_mono_left (fun c hc h => himp c (by simp [hc]) h)
    have ha := himp a (by simp)
    rcases List.mem_cons.mp hb with rfl | hb
    · simp only [h1, h2, if_true]; simp; omega
    · have := ih (fun c hc h => himp c (by simp [hc]) h) hb
      split <;> split <;> first | omega | (rename_i p q; exact absurd (ha p) q)

theorem rank_lt {o : InvOperation V} {bop : V → V → Bool} (hso : StrictOrder bop) {p : Problem V} {x y : List Nat}
    (hy : p.Labeling y) (h : bop (p.energy o.toOperation y) (p.energy o.toOperation x) = true) :
    rank o.toOperation bop p y < rank o.toOperation bop p x :=
  countP_lt _ _ _ (fun _ _ hz => hso.trans _ _ _ hz h) y (mem_labelings.mpr hy) (hso.irrefl _) h

theorem rank_lt_fuel (o : InvOperation V) (bop : V → V → Bool) (p : Problem V) (gm : GM V) (hl : gm.numLabels = p.numLabels)
    (x : List Nat) : rank o.toOperation bop p x < fuel gm := by
  have h1 : rank o.toOperation bop p x ≤ (allTuples p.numLabels).length := List.countP_le_length
  rw [length_allTuples] at h1
  have h2 : ∀ l : List Nat, l.foldr (· * ·) 1 = l.prod := by intro l; induction l <;> simp_all
  unfold fuel
  rw [h2, hl]
  omega

/-- Setting flags to false. -/
theorem resetFlags_spec : ∀ (ws : List Nat) (flags : List Bool), (∀ w ∈ ws, w < flags.length) →
    ∃ flags', resetFlags ws flags = some flags' ∧ flags'.length = flags.length ∧
      ∀ w : Nat, flags'[w]? = if w ∈ ws ∧ w < flags.length then some false else flags[w]?
  | [], flags, _ => ⟨flags, rfl, rfl, by simp⟩
  | w :: ws, flags, h => by
    have hw := h w (by simp)
    obtain ⟨fl, e1, e2, e3⟩ := resetFlags_spec ws (flags.set w false) (fun u hu => by simpa using h u (by simp [hu]))
    refine ⟨fl, by simp only [resetFlags, setAt_of_lt _ hw]; exact e1, by simpa using e2, ?_⟩
    intro u
    rw [e3 u]
    simp only [List.length_set, List.mem_cons]
    by_cases h1 : u ∈ ws ∧ u < flags.length
    · rw [if_pos h1, if_pos ⟨Or.inr h1.1, h1.2⟩]
    · rw [if_neg h1]
      by_cases h2 : w = u
      · subst h2
        rw [if_pos ⟨Or.inl rfl, hw⟩, List.getElem?_set_self hw]
      · rw [List.getElem?_set_ne h2, if_neg]
        rintro ⟨h3 | h3, h4⟩
        · exact h2 h3.symm
        · exact h1 ⟨h3, h4⟩

section
variable {o : InvOperation V} {bop : V → V → Bool} {p : Problem V}

theorem agree_singleton_fill {x z : List Nat} {v : Nat} (hz : AgreeOutside [v] x z) (hv : v < x.length) :
    ∃ l, z = fill x [v] [l] ∧ z[v]? = some l := by
  have h1 := eq_fill_of_agree hz (by simp) (by simpa using hv)
  have hvz : v < z.length := by rw [hz.1]; exact hv
  refine ⟨z[v], ?_, List.getElem?_eq_getElem hvz⟩
  simpa [restrict, List.getElem?_eq_getElem hvz] using h1

theorem fill_single_twice (x : List Nat) (v a b : Nat) : fill (fill x [v] [a]) [v] [b] = fill x [v] [b] := by
  simp [fill]

/-- What happens to labeling, flags and `updates` while variable `v` is processed. -/
structure Step (o : InvOperation V) (bop : V → V → Bool) (p : Problem V) (v : Nat) (adjV x x' : List Nat)
    (flags flags' : List Bool) (upd upd' : Bool) : Prop where
  agree : AgreeOutside [v] x x'
  flagsLen : flags'.length = flags.length
  change : (x' = x ∧ flags' = flags ∧ upd' = upd) ∨
    (bop (p.energy o.toOperation x') (p.energy o.toOperation x) = true ∧ upd' = true ∧
      ∀ w : Nat, flags'[w]? = some true → flags[w]? = some true ∧ w ∉ adjV)

theorem labelLoop_spec (hso : StrictOrder bop) (multiplier : Bool) (ho : multiplier = true ∨ o.Laws) (v n : Nat) (adjV : List Nat)
    (hn : p.numLabels[v]? = some n) : ∀ (ss : List Nat) (st : St V) (x : List Nat), (∀ s ∈ ss, s < n) →
    Tracks o st.m p x → (∀ w ∈ adjV, w < st.flags.length) →
    ∃ st' x', labelLoop o multiplier bop adjV v ss st = some st' ∧ Tracks o st'.m p x' ∧ st'.m.gm = st.m.gm ∧
      Step o bop p v adjV x x' st.flags st'.flags st.updates st'.updates ∧
      ∀ s ∈ ss, bop (p.energy o.toOperation (fill x [v] [s])) (p.energy o.toOperation x') = false
  | [], st, x, _, ht, _ => ⟨st, x, rfl, ht, rfl, ⟨⟨rfl, fun _ _ => rfl⟩, rfl, Or.inl ⟨rfl, rfl, rfl⟩⟩, by simp⟩
  | s :: ss, st, x, hs, ht, hadj => by
    have hvl : v < p.numLabels.length := (List.getElem?_eq_some_iff.mp hn).1
    have hvx : v < x.length := by rw [ht.labeling.1]; exact hvl
    have hir : InRange p.numLabels [v] [s] := by
      refine ⟨rfl, ?_⟩
      intro i w l k h1 h2 h3
      cases i with
      | zero =>
        simp only [List.getElem?_cons_zero, Option.some.injEq] at h1 h2
        subst h1 h2
        rw [hn] at h3
        have := hs s (by simp)
        simp at h3; omega
      | succ i => simp at h1
    have hself : fill x [v] [x[v]] = x := by simp [fill]
    have key : bop (p.energy o.toOperation (fill x [v] [s])) (p.energy o.toOperation x) = false →
        ∃ st' x', labelLoop o multiplier bop adjV v ss st = some st' ∧ Tracks o st'.m p x' ∧ st'.m.gm = st.m.gm ∧
          Step o bop p v adjV x x' st.flags st'.flags st.updates st'.updates ∧
          ∀ s' ∈ s :: ss, bop (p.energy o.toOperation (fill x [v] [s'])) (p.energy o.toOperation x') = false := by
      intro hnb
      obtain ⟨st', x', e1, e2, e3, e4, e5⟩ := labelLoop_spec hso multiplier ho v n adjV hn ss st x
        (fun u hu => hs u (by simp [hu])) ht hadj
      refine ⟨st', x', e1, e2, e3, e4, ?_⟩
      intro s' hs'
      rcases List.mem_cons.mp hs' with rfl | hs'
      · rcases e4.change with ⟨rfl, _⟩ | ⟨hb, _⟩
        · exact hnb
        · by_contra hcon
          have := hso.trans _ _ _ (by simpa using hcon) hb
          rw [hnb] at this; simp at this
      · exact e5 s' hs'
    unfold labelLoop
    rw [ht.state, List.getElem?_eq_getElem hvx]
    simp only
    by_cases hcur : s = x[v]
    · rw [if_neg (by simp [hcur])]
      exact key (by rw [hcur, hself]; exact hso.irrefl _)
    · rw [if_pos hcur, Movemaker.valueAfterMove_spec multiplier ho ht [v] [s] (by simp) (by simpa using hvl) hir]
      simp only
      have hval : st.m.value = p.energy o.toOperation x := ht.energy
      rw [hval]
      by_cases hb : bop (p.energy o.toOperation (fill x [v] [s])) (p.energy o.toOperation x) = true
      · rw [if_pos hb]
        obtain ⟨m2, f1, f2, f3⟩ := Movemaker.move_spec multiplier ho ht [v] [s] (by simp) (by simpa using hvl) hir
        obtain ⟨fl, g1, g2, g3⟩ := resetFlags_spec adjV st.flags hadj
        rw [f1, g1]
        simp only
        obtain ⟨st', x', e1, e2, e3, e4, e5⟩ := labelLoop_spec hso multiplier ho v n adjV hn ss ⟨m2, fl, true⟩ (fill x [v] [s])
          (fun u hu => hs u (by simp [hu])) f2 (by rw [g2]; exact hadj)
        have hfl : ∀ w : Nat, fl[w]? = some true → st.flags[w]? = some true ∧ w ∉ adjV := by
          intro w hw
          rw [g3 w] at hw
          split at hw
          · simp at hw
          · next hne =>
            refine ⟨hw, fun hmem => hne ⟨hmem, hadj w hmem⟩⟩
        refine ⟨st', x', e1, e2, e3.trans f3, ⟨?_, e4.flagsLen.trans g2, ?_⟩, ?_⟩
        · refine ⟨by rw [e4.agree.1]; simp, fun w hw => ?_⟩
          rw [e4.agree.2 w hw, fill_other _ _ _ _ hw]
        · right
          rcases e4.change with ⟨rfl, h2, h3⟩ | ⟨h1, h2, h3⟩
          · refine ⟨hb, h3, ?_⟩
            intro w hw
            rw [h2] at hw
            exact hfl w hw
          · exact ⟨hso.trans _ _ _ h1 hb, h2, fun w hw => hfl w (h3 w hw).1⟩
        · intro s' hs'
          rcases List.mem_cons.mp hs' with rfl | hs'
          · rcases e4.change with ⟨rfl, _⟩ | ⟨h1, _⟩
            · exact hso.irrefl _
            · by_contra hcon
              have := hso.trans _ _ _ h1 (by simpa using hcon)
              rw [hso.irrefl] at this; simp at this
          · have := e5 s' hs'
            rwa [fill_single_twice] at this
      · rw [if_neg hb]
        exact key (by simpa using hb)

/-- The flags that are set mark locally optimal variables. -/
def FlagsOK (o : InvOperation V) (bop : V → V → Bool) (p : Problem V) (x : List Nat) (flags : List Bool) : Prop :=
  ∀ w : Nat, flags[w]? = some true → LocallyOptimal o.toOperation bop p [w] x

/-- The adjacency lists are those of the problem. -/
def AdjOK (p : Problem V) (adj : List (List Nat)) : Prop :=
  ∀ v, v < p.numLabels.length → ∃ l, adj[v]? = some l ∧ (∀ w ∈ l, w < p.numLabels.length) ∧
    ∀ (w f : Nat), v ≠ w → mentions p.terms v f = true → mentions p.terms w f = true → w ∈ l

theorem sweep_spec (hc : IcmContext o bop) (multiplier : Bool) (ho : multiplier = true ∨ o.Laws)
    (adj : List (List Nat)) (hadj : AdjOK p adj) : ∀ (vs : List Nat) (st : St V) (x : List Nat),
    (∀ v ∈ vs, v < p.numLabels.length) → Tracks o st.m p x → st.flags.length = p.numLabels.length → FlagsOK o bop p x st.flags →
    ∃ st' x', sweep o multiplier bop adj vs st = some st' ∧ Tracks o st'.m p x' ∧ st'.m.gm = st.m.gm ∧
      st'.flags.length = p.numLabels.length ∧ FlagsOK o bop p x' st'.flags ∧
      ((x' = x ∧ st'.updates = st.updates ∧ (∀ w : Nat, st.flags[w]? = some true → st'.flags[w]? = some true) ∧
          ∀ v ∈ vs, st'.flags[v]? = some true) ∨
        (st'.updates = true ∧ bop (p.energy o.toOperation x') (p.energy o.toOperation x) = true))
  | [], st, x, _, ht, hf, hok => ⟨st, x, rfl, ht, rfl, hf, hok, Or.inl ⟨rfl, rfl, fun _ h => h, by simp⟩⟩
  | v :: vs, st, x, hr, ht, hf, hok => by
    have hv := hr v (by simp)
    have hflag : st.flags[v]? = some (st.flags[v]'(by rw [hf]; exact hv)) := List.getElem?_eq_getElem _
    unfold sweep
    rw [hflag]
    cases hfv : st.flags[v]'(by rw [hf]; exact hv) with
    | true =>
      simp only
      obtain ⟨st', x', e1, e2, e3, e4, e5, e6⟩ := sweep_spec hc multiplier ho adj hadj vs st x (fun u hu => hr u (by simp [hu])) ht hf hok
      refine ⟨st', x', e1, e2, e3, e4, e5, ?_⟩
      rcases e6 with ⟨h1, h2, h3, h4⟩ | h
      · refine Or.inl ⟨h1, h2, h3, ?_⟩
        intro w hw
        rcases List.mem_cons.mp hw with rfl | hw
        · exact h3 w (by rw [hflag, hfv])
        · exact h4 w hw
      · exact Or.inr h
    | false =>
      simp only
      obtain ⟨l, l1, l2, l3⟩ := hadj v hv
      rw [l1, ht.stores.labels, List.getElem?_eq_getElem hv]
      simp only
      obtain ⟨st1, x1, a1, a2, a3, a4, a5⟩ := labelLoop_spec hc.order multiplier ho v p.numLabels[v] l
        (List.getElem?_eq_getElem hv) (List.range p.numLabels[v]) st x (fun s hs => List.mem_range.mp hs) ht
        (fun w hw => by rw [hf]; exact l2 w hw)
      rw [a1]
      simp only
      have hlen1 : st1.flags.length = p.numLabels.length := a4.flagsLen.trans hf
      rw [setAt_of_lt _ (by rw [hlen1]; exact hv)]
      simp only
      have hvopt : LocallyOptimal o.toOperation bop p [v] x1 := by
        intro z hz hza
        have hza' : AgreeOutside [v] x z := ⟨hza.1.trans a4.agree.1, fun w hw => (hza.2 w hw).trans (a4.agree.2 w hw)⟩
        obtain ⟨s, rfl, hs⟩ := agree_singleton_fill hza' (by rw [ht.labeling.1]; exact hv)
        exact a5 s (List.mem_range.mpr (hz.2 v s _ hs (List.getElem?_eq_getElem hv)))
      have hok1 : FlagsOK o bop p x1 (st1.flags.set v true) := by
        intro w hw
        by_cases hwv : v = w
        · subst hwv; exact hvopt
        · rw [List.getElem?_set_ne hwv] at hw
          rcases a4.change with ⟨rfl, h2, _⟩ | ⟨_, _, h3⟩
          · rw [h2] at hw; exact hok w hw
          · obtain ⟨h4, h5⟩ := h3 w hw
            have hwl : w < p.numLabels.length := by
              have := (List.getElem?_eq_some_iff.mp h4).1
              omega
            refine transfer hc (U := [v]) ht.labeling (by simp) (by simpa using hwl) a4.agree ?_ (hok w h4)
            intro f w' u hw' hu hm
            simp only [List.mem_singleton] at hw' hu
            subst hw' hu
            by_contra hcon
            exact h5 (l3 w' f hwv (by simpa using hcon) hm)
      obtain ⟨st', x', e1, e2, e3, e4, e5, e6⟩ := sweep_spec hc multiplier ho adj hadj vs { st1 with flags := st1.flags.set v true } x1
        (fun u hu => hr u (by simp [hu])) a2 (by simpa using hlen1) hok1
      refine ⟨st', x', e1, e2, e3.trans a3, e4, e5, ?_⟩
      rcases e6 with ⟨h1, h2, h3, h4⟩ | ⟨h1, h2⟩
      · rcases a4.change with ⟨g1, g2, g3⟩ | ⟨g1, g2, _⟩
        · refine Or.inl ⟨h1.trans g1, h2.trans g3, ?_, ?_⟩
          · intro w hw
            apply h3
            simp only
            by_cases hwv : v = w
            · subst hwv; rw [List.getElem?_set_self (by rw [hlen1]; exact hv)]
            · rw [List.getElem?_set_ne hwv, g2]; exact hw
          · intro w hw
            rcases List.mem_cons.mp hw with rfl | hw
            · apply h3; simp only; rw [List.getElem?_set_self (by rw [hlen1]; exact hv)]
            · exact h4 w hw
        · exact Or.inr ⟨h2.trans g2, by rw [h1]; exact g1⟩
      · refine Or.inr ⟨h1, ?_⟩
        rcases a4.change with ⟨g1, _, _⟩ | ⟨g1, _, _⟩
        · rw [← g1]; exact h2
        · exact hc.order.trans _ _ _ h2 g1

theorem singleLoop_spec (hc : IcmContext o bop) (multiplier : Bool) (ho : multiplier = true ∨ o.Laws)
    (adj : List (List Nat)) (hadj : AdjOK p adj) : ∀ (fuel : Nat) (m : Movemaker V) (flags : List Bool) (x : List Nat),
    Tracks o m p x → flags.length = p.numLabels.length → FlagsOK o bop p x flags → rank o.toOperation bop p x < fuel →
    ∃ m' x', singleLoop o multiplier bop adj fuel m flags = some m' ∧ Tracks o m' p x' ∧ m'.gm = m.gm ∧
      (x' = x ∨ bop (p.energy o.toOperation x') (p.energy o.toOperation x) = true) ∧
      ∀ v, v < p.numLabels.length → LocallyOptimal o.toOperation bop p [v] x'
  | 0, _, _, _, _, _, _, h => by simp at h
  | fuel + 1, m, flags, x, ht, hf, hok, hrank => by
    have hn : m.gm.numberOfVariables = p.numLabels.length := by rw [GM.numberOfVariables, ht.stores.labels]
    obtain ⟨st', x', e1, e2, e3, e4, e5, e6⟩ := sweep_spec hc multiplier ho adj hadj (List.range p.numLabels.length) ⟨m, flags, false⟩ x
      (fun v hv => List.mem_range.mp hv) ht hf hok
    unfold singleLoop
    rw [hn, e1]
    simp only
    rcases e6 with ⟨h1, h2, h3, h4⟩ | ⟨h1, h2⟩
    · rw [if_neg (by rw [h2]; simp)]
      exact ⟨st'.m, x', rfl, e2, e3, Or.inl h1, fun v hv => e5 v (h4 v (List.mem_range.mpr hv))⟩
    · rw [if_pos h1]
      have := rank_lt (o := o) hc.order e2.labeling h2
      obtain ⟨m', x'', a1, a2, a3, a4, a5⟩ := singleLoop_spec hc multiplier ho adj hadj fuel st'.m st'.flags x' e2 e4 e5 (by omega)
      refine ⟨m', x'', a1, a2, a3.trans e3, Or.inr ?_, a5⟩
      rcases a4 with rfl | a4
      · exact h2
      · exact hc.order.trans _ _ _ a4 h2

theorem adjOK_of_represents {gm : GM V} (h : Represents gm p) :
    ∃ adj, gm.factorGraph.variableAdjacencyList = some adj ∧ AdjOK p adj := by
  obtain ⟨hex, hs, hnv⟩ := factorGraph_exact h
  obtain ⟨out, h1, h2, h3⟩ := FG.C09_adjacencyList gm.factorGraph hex
  refine ⟨out, h1, ?_⟩
  intro v hv
  obtain ⟨l, l1, l2, l3⟩ := h3 v (by rw [hnv]; exact hv)
  refine ⟨l, l1, ?_, ?_⟩
  · intro w hw
    obtain ⟨_, s, hs', _, hws⟩ := (l3 w).mp hw
    have := hex.range s hs' w hws
    rwa [hnv] at this
  · intro w f hne hm1 hm2
    rw [l3]
    refine ⟨hne, ?_⟩
    have hf := mentions_lt hm1
    unfold mentions at hm1 hm2
    rw [List.getElem?_eq_getElem hf] at hm1 hm2
    refine ⟨(p.terms[f]).vars, ?_, by simpa using hm1, by simpa using hm2⟩
    rw [hs]
    exact List.mem_map.mpr ⟨_, List.getElem_mem hf, rfl⟩

theorem inferSingle_spec (hc : IcmContext o bop) (multiplier : Bool) (ho : multiplier = true ∨ o.Laws) (m : Movemaker V)
    (x : List Nat) (ht : Tracks o m p x) (hrep : Represents m.gm p) :
    ∃ m' x', inferSingle o multiplier bop m = some m' ∧ Tracks o m' p x' ∧ m'.gm = m.gm ∧
      (x' = x ∨ bop (p.energy o.toOperation x') (p.energy o.toOperation x) = true) ∧
      ∀ v, v < p.numLabels.length → LocallyOptimal o.toOperation bop p [v] x' := by
  obtain ⟨adj, h1, h2⟩ := adjOK_of_represents hrep
  unfold inferSingle
  rw [h1]
  simp only
  have hn : m.gm.numberOfVariables = p.numLabels.length := by rw [GM.numberOfVariables, ht.stores.labels]
  apply singleLoop_spec hc multiplier ho adj h2 _ m _ x ht (by simp [hn])
  · intro w hw
    rw [List.getElem?_replicate] at hw
    split at hw <;> simp at hw
  · exact rank_lt_fuel o bop p m.gm ht.stores.labels x

theorem markChanged_spec {gm : GM V} (hrep : Represents gm p) (x y : List Nat) (hxy : y.length = x.length)
    (hxl : x.length = p.numLabels.length) :
    ∀ (vs : List Nat) (flags : List Bool), (∀ v ∈ vs, v < x.length) → flags.length = p.terms.length →
    ∃ flags', markChanged gm y vs (restrict x vs) flags = some flags' ∧ flags'.length = p.terms.length ∧
      (∀ f : Nat, flags'[f]? = some true → flags[f]? = some true ∧
        ∀ v ∈ vs, x[v]? ≠ y[v]? → mentions p.terms v f = false) ∧
      (∀ f : Nat, flags[f]? = some false → flags'[f]? = some false)
  | [], flags, _, hf => ⟨flags, rfl, hf, by simp, fun _ h => h⟩
  | v :: vs, flags, hr, hf => by
    have hv := hr v (by simp)
    have hvy : v < y.length := by omega
    have hvg : v < gm.numLabels.length := by rw [hrep.labels]; omega
    simp only [restrict, List.map_cons]
    unfold markChanged
    rw [List.getElem?_eq_getElem hvy]
    simp only [List.getD_eq_getElem?_getD, List.getElem?_eq_getElem hv, Option.getD_some]
    by_cases hne : x[v] = y[v]
    · rw [if_neg (by simp [hne])]
      obtain ⟨fl, e1, e2, e3, e4⟩ := markChanged_spec hrep x y hxy hxl vs flags (fun w hw => hr w (by simp [hw])) hf
      refine ⟨fl, by simpa [restrict] using e1, e2, ?_, e4⟩
      intro f hf'
      refine ⟨(e3 f hf').1, ?_⟩
      intro w hw hwne
      rcases List.mem_cons.mp hw with rfl | hw
      · exfalso; apply hwne
        rw [List.getElem?_eq_getElem hv, List.getElem?_eq_getElem hvy, hne]
      · exact (e3 f hf').2 w hw hwne
    · rw [if_pos hne, hrep.adj v hvg]
      simp only
      obtain ⟨fl1, g1, g2, g3⟩ := resetFlags_spec ((List.range p.terms.length).filter (mentions p.terms v)) flags
        (fun f h => by rw [hf]; exact List.mem_range.mp (List.mem_filter.mp h).1)
      rw [g1]
      simp only
      obtain ⟨fl, e1, e2, e3, e4⟩ := markChanged_spec hrep x y hxy hxl vs fl1 (fun w hw => hr w (by simp [hw])) (g2.trans hf)
      refine ⟨fl, by simpa [restrict] using e1, e2, ?_, ?_⟩
      · intro f hf'
        obtain ⟨h1, h2⟩ := e3 f hf'
        rw [g3 f] at h1
        split at h1
        · simp at h1
        · next hcond =>
          refine ⟨h1, ?_⟩
          intro w hw hwne
          rcases List.mem_cons.mp hw with rfl | hw
          · by_contra hcon
            apply hcond
            have hm : mentions p.terms w f = true := by simpa using hcon
            exact ⟨Movemaker.mem_fov.mpr hm, by rw [hf]; exact mentions_lt hm⟩
          · exact h2 w hw hwne
      · intro f hf'
        apply e4
        rw [g3 f]
        split
        · rfl
        · exact hf'

/-- Every variable is locally optimal or waits for one of its factors. -/
def Pending (o : InvOperation V) (bop : V → V → Bool) (p : Problem V) (x : List Nat) (flags : List Bool) : Prop :=
  ∀ w, w < p.numLabels.length → LocallyOptimal o.toOperation bop p [w] x ∨
    ∃ (f : Nat) (t : Term V), p.terms[f]? = some t ∧ w ∈ t.vars ∧ 1 < t.vars.length ∧ flags[f]? = some false

theorem one_lt_of_two_mem {l : List Nat} {a b : Nat} (ha : a ∈ l) (hb : b ∈ l) (h : a ≠ b) : 1 < l.length := by
  match l, ha, hb with
  | [c], ha, hb => simp at ha hb; omega
  | _ :: _ :: _, _, _ => simp

theorem factorSweep_spec (hc : IcmContext o bop) (reeval : V → Bool) (hrepl : Replaceable o bop reeval) :
    ∀ (rest : List FactorRec) (k : Nat) (st : St V) (x : List Nat), Tracks o st.m p x → Represents st.m.gm p →
    (∀ (j : Nat) (fac : FactorRec), rest[j]? = some fac → ∃ t, p.terms[k + j]? = some t ∧ FactorMatches st.m.gm fac t) →
    st.flags.length = p.terms.length → Pending o bop p x st.flags →
    ∃ st' x', factorSweep o bop reeval rest k st = some st' ∧ Tracks o st'.m p x' ∧ st'.m.gm = st.m.gm ∧
      st'.flags.length = p.terms.length ∧ Pending o bop p x' st'.flags ∧
      ((x' = x ∧ st'.updates = st.updates ∧ (∀ f : Nat, st.flags[f]? = some true → st'.flags[f]? = some true) ∧
          ∀ (j : Nat) (fac : FactorRec), rest[j]? = some fac → 1 < fac.visSize → st'.flags[k + j]? = some true) ∨
        (st'.updates = true ∧ bop (p.energy o.toOperation x') (p.energy o.toOperation x) = true))
  | [], k, st, x, ht, _, _, hf, hp => ⟨st, x, rfl, ht, rfl, hf, hp, Or.inl ⟨rfl, rfl, fun _ h => h, by simp⟩⟩
  | fac :: rest, k, st, x, ht, hrep, hmatch, hf, hp => by
    obtain ⟨t, t1, t2⟩ := hmatch 0 fac rfl
    rw [Nat.add_zero] at t1
    have hk : k < p.terms.length := (List.getElem?_eq_some_iff.mp t1).1
    have hflag : st.flags[k]? = some (st.flags[k]'(by rw [hf]; exact hk)) := List.getElem?_eq_getElem _
    have hmatch' : ∀ (j : Nat) (fac : FactorRec), rest[j]? = some fac →
        ∃ t, p.terms[k + 1 + j]? = some t ∧ FactorMatches st.m.gm fac t := by
      intro j fac' hj
      have := hmatch (j + 1) fac' (by simpa using hj)
      rwa [show k + (j + 1) = k + 1 + j by omega] at this
    unfold factorSweep
    rw [hflag]
    simp only
    by_cases hcond : st.flags[k]'(by rw [hf]; exact hk) = false ∧ fac.visSize > 1
    · rw [if_pos hcond]
      have hscope : st.m.gm.scope fac = t.vars := t2.scope
      have hsize : 1 < t.vars.length := by rw [← t2.visSize]; exact hcond.2
      have hrange : ∀ v ∈ t.vars, v < p.numLabels.length := by rw [← ht.stores.labels]; exact t2.range
      have hnd : t.vars.Nodup := t2.sorted.imp (fun h => Nat.ne_of_lt h)
      have hxl : x.length = st.m.gm.numLabels.length := by rw [ht.stores.labels]; exact ht.labeling.1
      obtain ⟨y, m', e1, e2, e3, e4, e5, e6⟩ := Movemaker.moveOptimally_spec hc.comm bop hc.order hc.reflects reeval hrepl ht t.vars
        (by intro h; rw [h] at hsize; simp at hsize) hnd hrange
      rw [ht.state, Movemaker.factorState_spec t2 x hxl, hscope, e1]
      simp only
      have hval : st.m.value = p.energy o.toOperation x := ht.energy
      have hopt : ∀ w ∈ t.vars, LocallyOptimal o.toOperation bop p [w] y := by
        intro w hw z hz hza
        apply e5 z hz
        refine ⟨hza.1.trans e4.1, fun u hu => ?_⟩
        rw [hza.2 u (by simp; rintro rfl; exact hu hw), e4.2 u hu]
      rw [hval]
      by_cases hb : bop (p.energy o.toOperation y) (p.energy o.toOperation x) = true
      · rw [if_pos hb, e3, hscope, e2.state]
        obtain ⟨fl, g1, g2, g3, g4⟩ := markChanged_spec hrep x y e4.1 ht.labeling.1 t.vars st.flags
          (fun v hv => by rw [ht.labeling.1]; exact hrange v hv) hf
        rw [g1]
        simp only [Option.map_some]
        rw [setAt_of_lt _ (by rw [g2]; exact hk)]
        simp only
        have hpend : Pending o bop p y (fl.set k true) := by
          intro w hw
          by_cases hwt : w ∈ t.vars
          · exact Or.inl (hopt w hwt)
          · -- a factor different from the processed one
            have hkeep : ∀ (f : Nat) (t' : Term V), p.terms[f]? = some t' → w ∈ t'.vars → fl[f]? = some false →
                (fl.set k true)[f]? = some false := by
              intro f t' ht' hw' hfl
              have : k ≠ f := by
                rintro rfl
                rw [t1] at ht'
                cases ht'
                exact hwt hw'
              rw [List.getElem?_set_ne this]; exact hfl
            by_cases hshare : ∃ (u f : Nat), u ∈ t.vars ∧ x[u]? ≠ y[u]? ∧ mentions p.terms u f = true ∧ mentions p.terms w f = true
            · right
              obtain ⟨u, f, hu, hune, hm1, hm2⟩ := hshare
              have hflt := mentions_lt hm1
              obtain ⟨t', ht'⟩ : ∃ t', p.terms[f]? = some t' := ⟨_, List.getElem?_eq_getElem hflt⟩
              have hu' : u ∈ t'.vars := by simpa [mentions, ht'] using hm1
              have hw' : w ∈ t'.vars := by simpa [mentions, ht'] using hm2
              have hfl : fl[f]? = some false := by
                have hlt : f < fl.length := by rw [g2]; exact hflt
                cases hfv : fl[f] with
                | false => rw [List.getElem?_eq_getElem hlt, hfv]
                | true =>
                  have := (g3 f (by rw [List.getElem?_eq_getElem hlt, hfv])).2 u hu hune
                  rw [hm1] at this; simp at this
              exact ⟨f, t', ht', hw', one_lt_of_two_mem hw' hu' (by rintro rfl; exact hwt hu), hkeep f t' ht' hw' hfl⟩
            · rcases hp w hw with hlo | ⟨f, t', ht', hw', hlen, hfl⟩
              · left
                refine transfer hc (U := t.vars.filter (fun u => decide (x[u]? ≠ y[u]?))) ht.labeling (by simp) (by simpa using hw)
                  ⟨e4.1, ?_⟩ ?_ hlo
                · intro u hu
                  by_cases hut : u ∈ t.vars
                  · by_contra hcon
                    apply hu
                    simp only [List.mem_filter, decide_eq_true_eq]
                    exact ⟨hut, fun h => hcon h.symm⟩
                  · exact e4.2 u hut
                · intro f w' u hw' hu hm
                  simp only [List.mem_singleton] at hw'
                  subst hw'
                  simp only [List.mem_filter, decide_eq_true_eq] at hu
                  by_contra hcon
                  exact hshare ⟨u, f, hu.1, hu.2, by simpa using hcon, hm⟩
              · exact Or.inr ⟨f, t', ht', hw', hlen, hkeep f t' ht' hw' (g4 f hfl)⟩
        obtain ⟨st', x', a1, a2, a3, a4, a5, a6⟩ := factorSweep_spec hc reeval hrepl rest (k + 1) ⟨m', fl.set k true, true⟩ y e2
          (by rw [e3]; exact hrep) (by simpa [e3] using hmatch') (by simpa using g2) hpend
        refine ⟨st', x', a1, a2, a3.trans e3, a4, a5, Or.inr ?_⟩
        rcases a6 with ⟨h1, h2, _, _⟩ | ⟨h1, h2⟩
        · exact ⟨h2, by rw [h1]; exact hb⟩
        · exact ⟨h1, hc.order.trans _ _ _ h2 hb⟩
      · have hyx : y = x := by
          rcases e6 hc.preserves with h | h
          · exact h
          · exact absurd h hb
        subst hyx
        rw [if_neg hb]
        simp only
        rw [setAt_of_lt _ (by rw [hf]; exact hk)]
        simp only
        have hpend : Pending o bop p y (st.flags.set k true) := by
          intro w hw
          by_cases hwt : w ∈ t.vars
          · exact Or.inl (hopt w hwt)
          · rcases hp w hw with hlo | ⟨f, t', ht', hw', hlen, hfl⟩
            · exact Or.inl hlo
            · refine Or.inr ⟨f, t', ht', hw', hlen, ?_⟩
              have : k ≠ f := by
                rintro rfl
                rw [t1] at ht'
                cases ht'
                exact hwt hw'
              rw [List.getElem?_set_ne this]; exact hfl
        obtain ⟨st', x', a1, a2, a3, a4, a5, a6⟩ := factorSweep_spec hc reeval hrepl rest (k + 1) ⟨m', st.flags.set k true, st.updates⟩ y e2
          (by rw [e3]; exact hrep) (by simpa [e3] using hmatch') (by simpa using hf) hpend
        refine ⟨st', x', a1, a2, a3.trans e3, a4, a5, ?_⟩
        rcases a6 with ⟨h1, h2, h3, h4⟩ | h
        · have hset : ∀ f : Nat, st.flags[f]? = some true → st'.flags[f]? = some true := by
            intro f hf'
            apply h3
            simp only
            by_cases e : k = f
            · subst e; rw [List.getElem?_set_self (by rw [hf]; exact hk)]
            · rw [List.getElem?_set_ne e]; exact hf'
          refine Or.inl ⟨h1, h2, hset, ?_⟩
          intro j fac' hj hsz
          cases j with
          | zero =>
            rw [Nat.add_zero]
            apply h3
            simp only
            rw [List.getElem?_set_self (by rw [hf]; exact hk)]
          | succ j =>
            have := h4 j fac' (by simpa using hj) hsz
            rwa [show k + (j + 1) = k + 1 + j by omega]
        · exact Or.inr h
    · rw [if_neg hcond]
      obtain ⟨st', x', a1, a2, a3, a4, a5, a6⟩ := factorSweep_spec hc reeval hrepl rest (k + 1) st x ht hrep hmatch' hf hp
      refine ⟨st', x', a1, a2, a3, a4, a5, ?_⟩
      rcases a6 with ⟨h1, h2, h3, h4⟩ | h
      · refine Or.inl ⟨h1, h2, h3, ?_⟩
        intro j fac' hj hsz
        cases j with
        | zero =>
          simp only [List.getElem?_cons_zero, Option.some.injEq] at hj
          subst hj
          rw [Nat.add_zero]
          apply h3
          rw [hflag]
          have : ¬ (st.flags[k]'(by rw [hf]; exact hk) = false) := fun h => hcond ⟨h, hsz⟩
          simpa using this
        | succ j =>
          have := h4 j fac' (by simpa using hj) hsz
          rwa [show k + (j + 1) = k + 1 + j by omega]
      · exact Or.inr h

theorem factorLoop_spec (hc : IcmContext o bop) (reeval : V → Bool) (hrepl : Replaceable o bop reeval) :
    ∀ (fuel : Nat) (m : Movemaker V) (flags : List Bool) (x : List Nat),
    Tracks o m p x → Represents m.gm p → flags.length = p.terms.length → Pending o bop p x flags →
    rank o.toOperation bop p x < fuel →
    ∃ m' x', factorLoop o bop reeval fuel m flags = some m' ∧ Tracks o m' p x' ∧ m'.gm = m.gm ∧
      (x' = x ∨ bop (p.energy o.toOperation x') (p.energy o.toOperation x) = true) ∧
      ∀ v, v < p.numLabels.length → LocallyOptimal o.toOperation bop p [v] x'
  | 0, _, _, _, _, _, _, _, h => by simp at h
  | fuel + 1, m, flags, x, ht, hrep, hf, hp, hrank => by
    have hmatch : ∀ (j : Nat) (fac : FactorRec), m.gm.factors[j]? = some fac →
        ∃ t, p.terms[0 + j]? = some t ∧ FactorMatches m.gm fac t := by
      intro j fac hj
      obtain ⟨h1, rfl⟩ := List.getElem?_eq_some_iff.mp hj
      have hlt : j < p.terms.length := by rw [← hrep.factors.length_eq]; exact h1
      refine ⟨p.terms[j], by rw [Nat.zero_add]; exact List.getElem?_eq_getElem hlt, ?_⟩
      exact List.Forall₂.get hrep.factors _ _
    obtain ⟨st', x', e1, e2, e3, e4, e5, e6⟩ := factorSweep_spec hc reeval hrepl m.gm.factors 0 ⟨m, flags, false⟩ x ht hrep hmatch hf hp
    unfold factorLoop
    rw [e1]
    simp only
    rcases e6 with ⟨h1, h2, h3, h4⟩ | ⟨h1, h2⟩
    · rw [if_neg (by rw [h2]; simp)]
      refine ⟨st'.m, x', rfl, e2, e3, Or.inl h1, fun v hv => ?_⟩
      rcases e5 v hv with h | ⟨f, t, ht', hvt, hlen, hfl⟩
      · exact h
      · exfalso
        obtain ⟨hlt, _⟩ := List.getElem?_eq_some_iff.mp ht'
        have hlt' : f < m.gm.factors.length := by rw [hrep.factors.length_eq]; exact hlt
        obtain ⟨t', ht'', hm⟩ := hmatch f _ (List.getElem?_eq_getElem hlt')
        rw [Nat.zero_add, ht'] at ht''
        cases ht''
        have := h4 f _ (List.getElem?_eq_getElem hlt') (by rw [hm.visSize]; exact hlen)
        rw [Nat.zero_add, hfl] at this
        simp at this
    · rw [if_pos h1]
      have := rank_lt (o := o) hc.order e2.labeling h2
      obtain ⟨m', x'', a1, a2, a3, a4, a5⟩ := factorLoop_spec hc reeval hrepl fuel st'.m st'.flags x' e2
        (by rw [e3]; exact hrep) e4 e5 (by omega)
      refine ⟨m', x'', a1, a2, a3.trans e3, Or.inr ?_, a5⟩
      rcases a4 with rfl | a4
      · exact h2
      · exact hc.order.trans _ _ _ a4 h2

theorem infer_spec (hc : IcmContext o bop) (multiplier : Bool) (ho : multiplier = true ∨ o.Laws) (reeval : V → Bool)
    (factorMoves : Bool) (hrepl : factorMoves = true → Replaceable o bop reeval) (m : Movemaker V)
    (x : List Nat) (ht : Tracks o m p x) (hrep : Represents m.gm p) :
    ∃ m' x', infer o multiplier bop reeval factorMoves m = some m' ∧ Tracks o m' p x' ∧ m'.gm = m.gm ∧
      (x' = x ∨ bop (p.energy o.toOperation x') (p.energy o.toOperation x) = true) ∧
      ∀ v, v < p.numLabels.length → LocallyOptimal o.toOperation bop p [v] x' := by
  obtain ⟨m1, x1, e1, e2, e3, e4, e5⟩ := inferSingle_spec hc multiplier ho m x ht hrep
  unfold infer
  rw [e1]
  simp only
  by_cases hfm : factorMoves = true
  · rw [if_pos hfm]
    obtain ⟨m', x', a1, a2, a3, a4, a5⟩ := factorLoop_spec hc reeval (hrepl hfm) (fuel m1.gm) m1
      (List.replicate m1.gm.numberOfFactors false) x1 e2 (by rw [e3]; exact hrep)
      (by simp [GM.numberOfFactors, e3, hrep.factors.length_eq]) (fun w hw => Or.inl (e5 w hw))
      (rank_lt_fuel o bop p m1.gm e2.stores.labels x1)
    refine ⟨m', x', a1, a2, a3.trans e3, ?_, a5⟩
    rcases a4 with rfl | a4
    · exact e4
    · rcases e4 with rfl | e4
      · exact Or.inr a4
      · exact Or.inr (hc.order.trans _ _ _ a4 e4)
  · rw [if_neg hfm]
    exact ⟨m1, x1, rfl, e2, e3, e4, e5⟩

end
end Icm
end OpenGM
