import Verif.Lemmas.ManipulatorSub
/-
GraphicalModelManipulator: the modified model and the submodels as a whole.
-/
namespace OpenGM
open Spec
namespace Manipulator
variable {V : Type}

theorem liftOp_fold_snoc (o : Operation V) (l : List (Option V)) (a : Option V) (b : V) :
    (l ++ [some b]).foldl (liftOp o).op a = (liftOp o).op (l.foldl (liftOp o).op a) (some b) := by
  rw [List.foldl_append]; rfl

theorem represents_ofSpace {W : Type} (n : Nat) (sh : List Nat) : Represents (GM.ofSpace n sh : GM W) ⟨sh, []⟩ := by
  refine ⟨⟨rfl, by simp [GM.ofSpace], List.Forall₂.nil, rfl⟩, ?_⟩
  intro v hv
  simp only [GM.ofSpace] at hv ⊢
  rw [List.getElem?_replicate, if_pos hv]
  rfl

/-- The energy of the modified model. -/
def modifiedEnergy (o : Operation V) (mode : Mode) (p : Problem V) (fix : List (Option Nat)) (x : List Nat) : V :=
  match mode with
  | .fix => p.energy o x
  | .drop => (p.dropFixed fix).energy o x

theorem buildModifiedModel_spec {o : Operation V} (ho : o.IsCommMonoid) {m : Manip V} {p : Problem V} {fix : List (Option Nat)} (hd : Describes m p fix)
    (hten : m.tentacleFactor = List.replicate m.gm.factors.length false) :
    ∃ g q, buildModifiedModel o m = some { m with locked := true, validModel := true, mgm := g } ∧
      Represents g ⟨freeLabels fix p.numLabels, q⟩ ∧
      ∀ ml, (⟨freeLabels fix p.numLabels, q⟩ : Problem (Option V)).Labeling ml →
        (⟨freeLabels fix p.numLabels, q⟩ : Problem (Option V)).energy (liftOp o) ml = some (modifiedEnergy o m.mode p fix (fillIn fix ml)) := by
  have hlabels := hd.rep.labels
  have hfixlen : fix.length = m.gm.numLabels.length := by rw [hlabels, hd.len]
  have hn : m.gm.numberOfVariables = fix.length := by rw [GM.numberOfVariables, hfixlen]
  obtain ⟨varMap, hvm1, hvm2⟩ := varMapLoop_spec hd.enc fix.length 0 0 (List.replicate fix.length 0) (by omega) (by simp [rank]) (by simp)
    (by intro v hv; omega)
  have hsh := shapeLoop_spec (gm := m.gm) hd.enc hfixlen hvm2 fix.length 0 (List.replicate (rank (freeSel fix) fix.length) 0) (by omega)
    (by simp [pick, rank])
  have hpl : Placed p.numLabels fix (rank (freeSel fix)) (freeLabels fix p.numLabels) (List.range fix.length) := by
    constructor
    · intro v hv hf
      rw [freeLabels_eq]
      exact pick_rank _ _ _ ((freeSel_iff fix v).mpr ⟨List.mem_range.mp hv, hf⟩)
    · intro v hv w hw hf hfw hlt
      exact rank_lt ((freeSel_iff fix v).mpr ⟨List.mem_range.mp hv, hf⟩) hlt
  have hpair : ∀ ml : List Nat, (⟨freeLabels fix p.numLabels, ([] : List (Term V))⟩ : Problem V).Labeling ml →
      Pair p fix (rank (freeSel fix)) ml (fillIn fix ml) := by
    intro ml hml
    have hlen : ml.length = rank (freeSel fix) fix.length := by
      have := hml.1
      simp only at this
      rw [this, freeLabels_eq, length_pick _ _ (by simp [freeSel, hd.len])]
      simp [freeSel]
    exact ⟨fillIn_labeling hd.len hd.range hml, fillIn_respects _ _ hlen, fun v hv hf => (fillIn_free _ _ _ hlen hv hf).symm⟩
  rw [hlabels] at hsh
  unfold buildModifiedModel
  rw [hn, hvm1]
  simp only [hsh]
  cases hmode : m.mode with
  | fix =>
    obtain ⟨g, us, c, h1, h2, h3, h4⟩ := buildLoop_fix ho hd hmode hten hvm2 hpl m.gm.factors p.terms hd.rep.factors 0 (by omega)
      (GM.ofSpace nTypes (freeLabels fix p.numLabels)) [] o.neutral (represents_ofSpace _ _) (by simp [GM.ofSpace])
    simp only [List.nil_append] at h2
    obtain ⟨g', h5, h6, _⟩ := addTerm_spec h2 (ty := 2) (by rw [h3]; decide) (constantFunction c) [] (by simp) (by simp) (by simp [constantFunction, restrict])
    rw [h1]
    simp only [h5]
    refine ⟨g', us ++ [⟨[], (constantFunction c).table⟩], rfl, h6, ?_⟩
    intro ml hml
    obtain ⟨b, e1, e2⟩ := h4 ml _ (hpair ml hml) o.neutral
    unfold Problem.energy
    simp only [List.map_append, List.map_cons, List.map_nil]
    have : (⟨[], (constantFunction c).table⟩ : Term (Option V)).value ml = some c := rfl
    rw [this, liftOp_fold_snoc]
    have e1' : (us.map (fun u => u.value ml)).foldl (liftOp o).op (liftOp o).neutral = some b := e1
    rw [e1']
    show some (o.op b c) = _
    rw [e2, ho.neutral_left]
    rfl
  | drop =>
    obtain ⟨g, us, c, h1, h2, h3, h4⟩ := buildLoop_drop (o := o) hd hmode hten hvm2 hpl m.gm.factors p.terms hd.rep.factors 0 (by omega)
      (GM.ofSpace nTypes (freeLabels fix p.numLabels)) [] o.neutral (represents_ofSpace _ _) (by simp [GM.ofSpace])
    simp only [List.nil_append] at h2
    rw [h1]
    refine ⟨g, us, rfl, h2, ?_⟩
    intro ml hml
    unfold Problem.energy
    rw [h4 ml _ (hpair ml hml)]
    show List.foldl (liftOp o).op (some o.neutral) _ = _
    rw [liftOp_foldl]
    rfl

/-! ### Submodels -/

theorem pick_get : ∀ (sel : List Bool) (xs ys : List Nat), xs.length = ys.length → ∀ i l n : Nat, (pick sel xs)[i]? = some l → (pick sel ys)[i]? = some n →
    ∃ v : Nat, xs[v]? = some l ∧ ys[v]? = some n
  | [], xs, ys, _, i, l, n, h, _ => by simp [pick] at h
  | b :: sel, [], ys, _, i, l, n, h, _ => by simp [pick] at h
  | b :: sel, x :: xs, [], _, i, l, n, _, h => by simp [pick] at h
  | b :: sel, x :: xs, y :: ys, hl, i, l, n, h1, h2 => by
    have hrec := pick_get sel xs ys (by simpa using hl)
    cases b with
    | false =>
      have e1 : pick (false :: sel) (x :: xs) = pick sel xs := by simp [pick]
      have e2 : pick (false :: sel) (y :: ys) = pick sel ys := by simp [pick]
      rw [e1] at h1
      rw [e2] at h2
      obtain ⟨v, g1, g2⟩ := hrec i l n h1 h2
      exact ⟨v + 1, by simpa using g1, by simpa using g2⟩
    | true =>
      have e1 : pick (true :: sel) (x :: xs) = x :: pick sel xs := by simp [pick]
      have e2 : pick (true :: sel) (y :: ys) = y :: pick sel ys := by simp [pick]
      rw [e1] at h1
      rw [e2] at h2
      cases i with
      | zero => exact ⟨0, by simpa using h1, by simpa using h2⟩
      | succ i =>
        obtain ⟨v, g1, g2⟩ := hrec i l n (by simpa using h1) (by simpa using h2)
        exact ⟨v + 1, by simpa using g1, by simpa using g2⟩

/-- The labeling of all variables for labelings of the submodels. -/
def joined (fix : List (Option Nat)) (v2s : List Nat) (subconf : List (List Nat)) : List Nat :=
  (List.range fix.length).map (fun v => match fx fix v with
    | some l => l
    | none => (subconf.getD (v2s.getD v 0) []).getD (subRank fix v2s v) 0)

/-- The labelings of the submodels for a labeling of all variables. -/
def divided (fix : List (Option Nat)) (v2s : List Nat) (n : Nat) (x : List Nat) : List (List Nat) :=
  (List.range n).map (fun s => pick (subSel fix v2s s) x)

/-- Labelings of `n` submodels. -/
def SubLabelings (fix : List (Option Nat)) (v2s numLabels : List Nat) (n : Nat) (subconf : List (List Nat)) : Prop :=
  subconf.length = n ∧ ∀ s conf, subconf[s]? = some conf → (⟨pick (subSel fix v2s s) numLabels, []⟩ : Problem V).Labeling conf

theorem joined_pair {p : Problem V} {fix : List (Option Nat)} (hlen : fix.length = p.numLabels.length) (hrange : FixInRange p.numLabels fix) {n : Nat}
    {v2s : List Nat} (hv2s : ∀ v, v < fix.length → isFree fix v = true → ∃ s, s < n ∧ v2s[v]? = some s) {subconf : List (List Nat)}
    (hsc : SubLabelings (V := V) fix v2s p.numLabels n subconf) : SubPair p fix v2s subconf (joined fix v2s subconf) := by
  have hget : ∀ v, v < fix.length → (joined fix v2s subconf)[v]? = some (match fx fix v with
      | some l => l
      | none => (subconf.getD (v2s.getD v 0) []).getD (subRank fix v2s v) 0) := by
    intro v hv
    unfold joined
    rw [List.getElem?_map, List.getElem?_range hv]
    rfl
  have hkey : ∀ v s : Nat, ∀ conf : List Nat, v < fix.length → isFree fix v = true → v2s[v]? = some s → subconf[s]? = some conf →
      ∃ l n, conf[subRank fix v2s v]? = some l ∧ (joined fix v2s subconf)[v]? = some l ∧ p.numLabels[v]? = some n ∧ l < n := by
    intro v s conf hv hf hvs hc
    have hsel : (subSel fix v2s s)[v]? = some true := by rw [subSel_get hv, hf, hvs]; simp
    have hsr : subRank fix v2s v = rank (subSel fix v2s s) v := by rw [subRank, getD_of_some hvs]
    have hpr := pick_rank _ p.numLabels v hsel
    have hvn : v < p.numLabels.length := by omega
    rw [List.getElem?_eq_getElem hvn] at hpr
    obtain ⟨h1, h2⟩ := hsc.2 s conf hc
    have hlt : rank (subSel fix v2s s) v < conf.length := by
      rw [h1]
      exact (List.getElem?_eq_some_iff.mp hpr).1
    refine ⟨conf[rank (subSel fix v2s s) v], p.numLabels[v], ?_, ?_, List.getElem?_eq_getElem hvn, ?_⟩
    · rw [hsr]; exact List.getElem?_eq_getElem hlt
    · rw [hget v hv]
      have : fx fix v = none := by simpa [isFree] using hf
      rw [this]
      simp only
      rw [getD_of_some hvs, hsr, List.getD_eq_getElem?_getD, List.getD_eq_getElem?_getD, hc]
      simp [List.getElem?_eq_getElem hlt]
    · exact h2 _ _ _ (List.getElem?_eq_getElem hlt) hpr
  have hconf : ∀ v, v < fix.length → isFree fix v = true → ∃ s conf, v2s[v]? = some s ∧ subconf[s]? = some conf := by
    intro v hv hf
    obtain ⟨s, hs, hvs⟩ := hv2s v hv hf
    exact ⟨s, _, hvs, List.getElem?_eq_getElem (by rw [hsc.1]; exact hs)⟩
  refine ⟨⟨by simp [joined, hlen], ?_⟩, ?_, ?_⟩
  · intro v l n h1 h2
    have hv : v < fix.length := by rw [hlen]; exact (List.getElem?_eq_some_iff.mp h2).1
    cases hf : fx fix v with
    | some l' =>
      rw [hget v hv, hf] at h1
      simp only [Option.some.injEq] at h1
      subst h1
      exact hrange v _ n (fx_some hf) h2
    | none =>
      have hfree : isFree fix v = true := by simp [isFree, hf]
      obtain ⟨s, conf, g1, g2⟩ := hconf v hv hfree
      obtain ⟨l', n', k1, k2, k3, k4⟩ := hkey v s conf hv hfree g1 g2
      rw [h1] at k2; rw [h2] at k3
      simp only [Option.some.injEq] at k2 k3
      omega
  · intro v l h
    have hv := (List.getElem?_eq_some_iff.mp h).1
    have : fx fix v = some l := by simp [fx, h]
    rw [hget v hv, this]
  · intro v s conf hv hf hvs hc
    obtain ⟨l', n', k1, k2, k3, k4⟩ := hkey v s conf hv hf hvs hc
    rw [k1, k2]

theorem divided_pair {p : Problem V} {fix : List (Option Nat)} (hlen : fix.length = p.numLabels.length) {n : Nat} {v2s : List Nat} {x : List Nat}
    (hx : p.Labeling x) (hr : Respects fix x) :
    SubPair p fix v2s (divided fix v2s n x) x ∧ SubLabelings (V := V) fix v2s p.numLabels n (divided fix v2s n x) := by
  have hget : ∀ (s : Nat) (conf : List Nat), (divided fix v2s n x)[s]? = some conf → conf = pick (subSel fix v2s s) x := by
    intro s conf h
    unfold divided at h
    have hs : s < n := by have := (List.getElem?_eq_some_iff.mp h).1; simpa using this
    rw [List.getElem?_map, List.getElem?_range hs] at h
    simpa using h.symm
  refine ⟨⟨hx, hr, ?_⟩, by simp [divided], ?_⟩
  · intro v s conf hv hf hvs hc
    rw [hget s conf hc, subRank, getD_of_some hvs]
    exact pick_rank _ _ _ (by rw [subSel_get hv, hf, hvs]; simp)
  · intro s conf hc
    rw [hget s conf hc]
    refine ⟨?_, ?_⟩
    · rw [length_pick _ _ (by rw [subSel_length, hx.1, hlen]), length_pick _ _ (by rw [subSel_length, hlen])]
    · intro i l k h1 h2
      obtain ⟨v, g1, g2⟩ := pick_get _ _ _ hx.1 i l k h1 h2
      exact hx.2 v l k g1 g2

/-- What `buildModifiedSubModels` establishes. -/
structure SubsBuilt (o : Operation V) (mode : Mode) (p : Problem V) (fix : List (Option Nat)) (count n : Nat) (v2s : List Nat) (subs : List (GM (Option V))) : Prop where
  comp : Components p fix count v2s
  le : n = max count 1
  len : subs.length = n
  labels : ∀ (s : Nat) (g : GM (Option V)), subs[s]? = some g → g.numLabels = pick (subSel fix v2s s) p.numLabels
  value : ∀ subconf x, SubLabelings (V := V) fix v2s p.numLabels n subconf → SubPair p fix v2s subconf x → ∃ vs : List V, vs.length = n ∧
    (∀ (s : Nat) (g : GM (Option V)) (conf : List Nat), subs[s]? = some g → subconf[s]? = some conf → ∃ v, vs[s]? = some v ∧ g.evaluate (liftOp o) conf = some (some v)) ∧
    total o vs = modifiedEnergy o mode p fix x

theorem subValues_evaluate {o : Operation V} {fix : List (Option Nat)} {v2s numLabels : List Nat} {n : Nat} {subs : List (GM (Option V))}
    {qs : List (List (Term (Option V)))} (hok : SubsOk fix v2s numLabels n subs qs) {subconf : List (List Nat)}
    (hsc : SubLabelings (V := V) fix v2s numLabels n subconf) {vs : List V} (hvs : subValues o qs subconf = vs.map some) :
    vs.length = n ∧ ∀ (s : Nat) (g : GM (Option V)) (conf : List Nat), subs[s]? = some g → subconf[s]? = some conf →
      ∃ v, vs[s]? = some v ∧ g.evaluate (liftOp o) conf = some (some v) := by
  have hl : vs.length = n := by
    have := congrArg List.length hvs
    simp only [subValues, List.length_zipWith, List.length_map, hok.lenQ, hsc.1, Nat.min_self] at this
    exact this.symm
  refine ⟨hl, ?_⟩
  intro s g conf hg hc
  have hs : s < n := by rw [← hok.len]; exact (List.getElem?_eq_some_iff.mp hg).1
  have hq : qs[s]? = some (qs[s]'(by rw [hok.lenQ]; exact hs)) := List.getElem?_eq_getElem _
  obtain ⟨hrep, _⟩ := hok.rep s g _ hg hq
  have hlab := hsc.2 s conf hc
  have hev := evaluate_spec (liftOp o) hrep.toStores conf hlab
  have hval : (subValues o qs subconf)[s]? = some (((qs[s]'(by rw [hok.lenQ]; exact hs)).map (fun u => u.value conf)).foldl (liftOp o).op (some o.neutral)) := by
    unfold subValues
    rw [List.getElem?_zipWith, hq, hc]
  rw [hvs, List.getElem?_map, List.getElem?_eq_getElem (show s < vs.length by omega)] at hval
  refine ⟨vs[s], List.getElem?_eq_getElem _, ?_⟩
  rw [hev]
  simp only [Option.map_some, Option.some.injEq] at hval
  rw [hval]
  rfl

theorem subsOk_init (fix : List (Option Nat)) (v2s numLabels : List Nat) (n : Nat) :
    SubsOk (V := V) fix v2s numLabels n (((List.range n).map (fun s => pick (subSel fix v2s s) numLabels)).map (fun sh => GM.ofSpace nTypes sh))
      (List.replicate n []) := by
  refine ⟨by simp, by simp, ?_⟩
  intro s g q hg hq
  have hs : s < n := by have := (List.getElem?_eq_some_iff.mp hg).1; simpa using this
  rw [List.getElem?_map, List.getElem?_map, List.getElem?_range hs] at hg
  rw [List.getElem?_replicate, if_pos hs] at hq
  simp only [Option.map_some, Option.some.injEq] at hg hq
  subst hg hq
  exact ⟨represents_ofSpace _ _, by simp [GM.ofSpace]⟩

theorem subValues_init (o : Operation V) : ∀ (n : Nat) (subconf : List (List Nat)), subconf.length = n →
    subValues o (List.replicate n []) subconf = (List.replicate n o.neutral).map some := by
  intro n
  induction n with
  | zero => intro sc h; simp [subValues]
  | succ n ih =>
    intro sc h
    cases sc with
    | nil => simp at h
    | cons c sc =>
      have := ih sc (by simpa using h)
      simp only [subValues] at this ⊢
      simp only [List.replicate_succ, List.zipWith_cons_cons, List.map_cons, this]
      simp

theorem total_neutral {o : Operation V} (ho : o.IsCommMonoid) : ∀ n, total o (List.replicate n o.neutral) = o.neutral
  | 0 => rfl
  | n + 1 => by rw [List.replicate_succ, total_cons ho, ho.neutral_left, total_neutral ho n]

theorem buildModifiedSubModels_spec {o : Operation V} (ho : o.IsCommMonoid) {m : Manip V} {p : Problem V} {fix : List (Option Nat)} (hd : Describes m p fix)
    (hten : m.tentacleFactor = List.replicate m.gm.factors.length false) (hvars : m.mode = .fix → ∀ t ∈ p.terms, t.vars ≠ []) :
    ∃ count v2s subs, buildModifiedSubModels o m = some { m with locked := true, validSubModels := true, submodels := subs, var2subProblem := v2s } ∧
      SubsBuilt o m.mode p fix count (max count 1) v2s subs := by
  have hlabels := hd.rep.labels
  have hfixlen : fix.length = m.gm.numLabels.length := by rw [hlabels, hd.len]
  have hn : m.gm.numberOfVariables = fix.length := by rw [GM.numberOfVariables, hfixlen]
  obtain ⟨count, closed, v2s, hc1, hcomp⟩ := components_spec hd.rep hd.enc hd.len (by rw [hd.v2s, hd.len])
  have hnn : (if count = 0 then 1 else count) = max count 1 := by split <;> omega
  have hv2s : ∀ v, v < fix.length → isFree fix v = true → ∃ s, s < max count 1 ∧ v2s[v]? = some s := by
    intro v hv hf
    obtain ⟨s, hs, h⟩ := hcomp.lt v (free_iff.mpr ⟨hv, hf⟩)
    exact ⟨s, by omega, h⟩
  obtain ⟨counts, varMap, hm1, hm2, hm3, hm4⟩ := subVarMapLoop_spec hd.enc hv2s fix.length 0 (List.replicate (max count 1) 0)
    (List.replicate fix.length 0) (by omega) (by simp) (by simp)
    (by intro s hs; rw [List.getElem?_replicate, if_pos hs]; simp [rank]) (by intro v hv; omega)
  have hsh := subShapeLoop_spec (gm := m.gm) hd.enc hfixlen hv2s hm4 fix.length 0 (counts.map (fun c => List.replicate c 0)) (by omega)
    (by simpa using hm2) (by
      intro s hs
      rw [List.getElem?_map, hm3 s hs]
      simp [pick, rank])
  rw [hlabels] at hsh
  have hok0 := subsOk_init (V := V) fix v2s p.numLabels (max count 1)
  have hfin : ∀ (subs : List (GM (Option V))) qs, SubsOk fix v2s p.numLabels (max count 1) subs qs →
      (∀ subconf x, subconf.length = max count 1 → SubPair p fix v2s subconf x → ∃ vs, subValues o qs subconf = vs.map some ∧
        total o vs = modifiedEnergy o m.mode p fix x) →
      SubsBuilt o m.mode p fix count (max count 1) v2s subs := by
    intro subs qs hok hval
    refine ⟨hcomp, rfl, hok.len, ?_, ?_⟩
    · intro s g hg
      have hs : s < qs.length := by rw [hok.lenQ, ← hok.len]; exact (List.getElem?_eq_some_iff.mp hg).1
      exact (hok.rep s g _ hg (List.getElem?_eq_getElem hs)).1.labels
    · intro subconf x hsc hp
      obtain ⟨vs, h1, h2⟩ := hval subconf x hsc.1 hp
      obtain ⟨h3, h4⟩ := subValues_evaluate hok hsc h1
      exact ⟨vs, h3, h4, h2⟩
  unfold buildModifiedSubModels
  rw [hc1]
  simp only [hn, hnn, hm1, hsh]
  cases hmode : m.mode with
  | fix =>
    rw [hmode] at hfin
    have hvars := hvars hmode
    obtain ⟨subs, qs, c, h1, h2, h3⟩ := buildSubLoop_fix ho hd hmode hten hcomp (show count ≤ max count 1 by omega) (by omega) hm4 m.gm.factors p.terms
      hd.rep.factors (fun t ht => ⟨ht, hvars t ht⟩) 0 (by omega) _ _ o.neutral hok0
    rw [h1]
    have hs0 : 0 < subs.length := by rw [h2.len]; omega
    have hq0 : 0 < qs.length := by rw [h2.lenQ]; omega
    have hg := List.getElem?_eq_getElem hs0
    have hq := List.getElem?_eq_getElem hq0
    obtain ⟨hrep, hgt⟩ := h2.rep 0 _ _ hg hq
    obtain ⟨g', h5, h6, h7⟩ := addTerm_spec hrep (ty := 2) (by rw [hgt]; decide) (constantFunction c) [] (by simp) (by simp) (by simp [constantFunction, restrict])
    simp only [addSubTerm, hg, h5, Option.map_some]
    refine ⟨count, v2s, _, rfl, hfin _ (qs.set 0 (qs[0] ++ [⟨[], (constantFunction c).table⟩])) (h2.step h6 (by rw [h7, hgt])) ?_⟩
    intro subconf x hsl hp
    obtain ⟨vs, e1, e2⟩ := h3 subconf x hsl hp _ (subValues_init o _ subconf hsl)
    have hc0 : subconf[0]? = some (subconf[0]'(by omega)) := List.getElem?_eq_getElem _
    obtain ⟨a, ha, hsv⟩ := subValues_set o qs subconf 0 qs[0] ⟨[], (constantFunction c).table⟩ _ hq hc0 vs e1 c rfl
    refine ⟨_, hsv, ?_⟩
    rw [total_set ho vs 0 a c ha, e2, total_neutral ho, ho.neutral_left]
    rfl
  | drop =>
    rw [hmode] at hfin
    obtain ⟨subs, qs, c, h1, h2, h3⟩ := buildSubLoop_drop ho hd hmode hten hcomp (show count ≤ max count 1 by omega) (by omega) hm4 m.gm.factors p.terms
      hd.rep.factors (fun t ht => ht) 0 (by omega) _ _ o.neutral hok0
    rw [h1]
    refine ⟨count, v2s, subs, rfl, hfin subs qs h2 ?_⟩
    intro subconf x hsl hp
    obtain ⟨vs, e1, e2⟩ := h3 subconf x hsl hp _ (subValues_init o _ subconf hsl)
    refine ⟨vs, e1, ?_⟩
    rw [e2, total_neutral ho]
    rfl

theorem modifiedSubStates_spec {m : Manip V} {o : Operation V} {mode : Mode} {p : Problem V} {fix : List (Option Nat)} (hd : Describes m p fix) {count n : Nat}
    (hb : SubsBuilt o mode p fix count n m.var2subProblem m.submodels) {subconf : List (List Nat)} {x : List Nat}
    (hsl : subconf.length = n) (hp : SubPair p fix m.var2subProblem subconf x) : modifiedSubStates2OriginalState m subconf = some x := by
  have hn : m.gm.numberOfVariables = fix.length := by rw [GM.numberOfVariables, hd.rep.labels, hd.len]
  unfold modifiedSubStates2OriginalState
  rw [hn, hb.len]
  have := originalSubLoop_spec hd.enc (n := n) (v2s := m.var2subProblem) (by
      intro v hv hf
      obtain ⟨s, hs, h⟩ := hb.comp.lt v (free_iff.mpr ⟨hv, hf⟩)
      exact ⟨s, by have := hb.le; omega, h⟩) subconf x (by rw [hp.labeling.1, hd.len]) hp.respects hsl hp.free fix.length 0
    (List.replicate n 0) (by omega) (by simp)
    (by intro s hs; rw [List.getElem?_replicate, if_pos hs]; simp [rank])
  simpa using this

end Manipulator
end OpenGM
