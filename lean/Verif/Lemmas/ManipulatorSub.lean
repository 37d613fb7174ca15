import Verif.Lemmas.ManipulatorComponents
/-
GraphicalModelManipulator: `buildModifiedSubModels`.
-/
namespace OpenGM
open Spec
namespace Manipulator
variable {V : Type}

/-- The free variables of subproblem `s`. -/
def subSel (fix : List (Option Nat)) (v2s : List Nat) (s : Nat) : List Bool :=
  (List.range fix.length).map (fun v => isFree fix v && v2s[v]? == some s)

/-- Position of a free variable in its subproblem. -/
def subRank (fix : List (Option Nat)) (v2s : List Nat) (v : Nat) : Nat := rank (subSel fix v2s (v2s.getD v 0)) v

theorem subSel_get {fix : List (Option Nat)} {v2s : List Nat} {s v : Nat} (hv : v < fix.length) :
    (subSel fix v2s s)[v]? = some (isFree fix v && v2s[v]? == some s) := by
  unfold subSel
  rw [List.getElem?_map, List.getElem?_range hv]
  rfl

theorem subSel_length (fix : List (Option Nat)) (v2s : List Nat) (s : Nat) : (subSel fix v2s s).length = fix.length := by simp [subSel]

theorem getD_of_some {l : List Nat} {v s : Nat} (h : l[v]? = some s) : l.getD v 0 = s := by simp [h]

theorem subVarMapLoop_spec {fv : List Bool} {fl v2s : List Nat} {fix : List (Option Nat)} (he : Encodes fv fl fix) {n : Nat}
    (hv2s : ∀ v, v < fix.length → isFree fix v = true → ∃ s, s < n ∧ v2s[v]? = some s) :
    ∀ (k var : Nat) (counts varMap : List Nat), var + k = fix.length → counts.length = n → varMap.length = fix.length →
    (∀ s, s < n → counts[s]? = some (rank (subSel fix v2s s) var)) →
    (∀ v, v < var → isFree fix v = true → varMap[v]? = some (subRank fix v2s v)) →
    ∃ counts' varMap', subVarMapLoop fv v2s var k counts varMap = some (counts', varMap') ∧ counts'.length = n ∧
      (∀ s, s < n → counts'[s]? = some (rank (subSel fix v2s s) fix.length)) ∧
      ∀ v, v < fix.length → isFree fix v = true → varMap'[v]? = some (subRank fix v2s v) := by
  intro k
  induction k with
  | zero =>
    intro var counts varMap hv hc hl h1 h2
    have : var = fix.length := by omega
    subst this
    exact ⟨counts, varMap, rfl, hc, h1, h2⟩
  | succ k ih =>
    intro var counts varMap hv hc hl h1 h2
    have hlt : var < fix.length := by omega
    unfold subVarMapLoop
    cases hf : fx fix var with
    | some l =>
      obtain ⟨g1, g2⟩ := he.fixed var l (fx_some hf)
      have hnf : isFree fix var = false := by simp [isFree, hf]
      rw [g1]
      simp only
      apply ih (var + 1) counts varMap (by omega) hc hl
      · intro s hs
        rw [h1 s hs, rank_succ (subSel_get hlt), hnf]
        simp
      · intro v hv' hfree
        by_cases hvv : v = var
        · subst hvv; rw [hnf] at hfree; simp at hfree
        · exact h2 v (by omega) hfree
    | none =>
      have g1 := he.free var (fx_none hlt hf)
      have hfree : isFree fix var = true := by simp [isFree, hf]
      obtain ⟨s, hs, hvs⟩ := hv2s var hlt hfree
      rw [g1]
      simp only [hvs, h1 s hs]
      rw [setAt_of_lt _ (by omega)]
      simp only
      apply ih (var + 1) _ _ (by omega) (by simpa using hc) (by simpa using hl)
      · intro s' hs'
        rw [rank_succ (subSel_get hlt), hfree, hvs]
        by_cases hss : s' = s
        · subst hss
          rw [List.getElem?_set_self (by omega)]
          simp
        · rw [List.getElem?_set_ne (Ne.symm hss), h1 s' hs']
          simp [Ne.symm hss]
      · intro v hv' hfree'
        by_cases hvv : v = var
        · subst hvv
          rw [List.getElem?_set_self (by omega)]
          rw [subRank, getD_of_some hvs]
        · rw [List.getElem?_set_ne (Ne.symm hvv)]
          exact h2 v (by omega) hfree'

theorem subShapeLoop_spec {gm : GM V} {fv : List Bool} {fl v2s varMap : List Nat} {fix : List (Option Nat)} (he : Encodes fv fl fix)
    (hlen : fix.length = gm.numLabels.length) {n : Nat}
    (hv2s : ∀ v, v < fix.length → isFree fix v = true → ∃ s, s < n ∧ v2s[v]? = some s)
    (hvm : ∀ v, v < fix.length → isFree fix v = true → varMap[v]? = some (subRank fix v2s v)) :
    ∀ (k var : Nat) (shapes : List (List Nat)), var + k = fix.length → shapes.length = n →
    (∀ s, s < n → shapes[s]? = some (pick ((subSel fix v2s s).take var) (gm.numLabels.take var) ++
      List.replicate (rank (subSel fix v2s s) fix.length - rank (subSel fix v2s s) var) 0)) →
    subShapeLoop gm fv v2s varMap var k shapes = some ((List.range n).map (fun s => pick (subSel fix v2s s) gm.numLabels)) := by
  intro k
  induction k with
  | zero =>
    intro var shapes hv hl hs
    have : var = fix.length := by omega
    subst this
    unfold subShapeLoop
    congr 1
    apply List.ext_getElem?
    intro s
    by_cases hsn : s < n
    · rw [hs s hsn, List.getElem?_map, List.getElem?_range hsn, Nat.sub_self, List.take_of_length_le (by rw [subSel_length]),
        List.take_of_length_le (by omega)]
      simp
    · rw [List.getElem?_eq_none (by omega), List.getElem?_eq_none (by simp; omega)]
  | succ k ih =>
    intro var shapes hv hl hs
    have hlt : var < fix.length := by omega
    have hltn : var < gm.numLabels.length := by omega
    have hlab := List.getElem?_eq_getElem hltn
    unfold subShapeLoop
    cases hf : fx fix var with
    | some l =>
      obtain ⟨h1, h2⟩ := he.fixed var l (fx_some hf)
      have hnf : isFree fix var = false := by simp [isFree, hf]
      rw [h1]
      simp only
      apply ih (var + 1) shapes (by omega) hl
      intro s hsn
      have hsel := subSel_get (v2s := v2s) (s := s) hlt
      rw [hs s hsn, pick_take_succ hsel hlab, rank_succ hsel, hnf]
      simp
    | none =>
      have h1 := he.free var (fx_none hlt hf)
      have hfree : isFree fix var = true := by simp [isFree, hf]
      obtain ⟨s, hsn, hvs⟩ := hv2s var hlt hfree
      have hsel : (subSel fix v2s s)[var]? = some true := by rw [subSel_get hlt, hfree, hvs]; simp
      have hpl := length_pick_take (sel := subSel fix v2s s) (xs := gm.numLabels) (by rw [subSel_length, hlen]) var (by rw [subSel_length]; omega)
      have hrk := rank_lt hsel (show var < fix.length by omega)
      have hsr : subRank fix v2s var = rank (subSel fix v2s s) var := by rw [subRank, getD_of_some hvs]
      rw [h1]
      simp only [hvs, hvm var hlt hfree, hlab, hs s hsn, hsr]
      obtain ⟨m, hm⟩ : ∃ m, rank (subSel fix v2s s) fix.length - rank (subSel fix v2s s) var = m + 1 := ⟨_, (Nat.succ_pred_eq_of_pos (by omega)).symm⟩
      rw [hm, List.replicate_succ, setAt_of_lt _ (by simp [hpl])]
      simp only
      apply ih (var + 1) _ (by omega) (by simpa using hl)
      intro s' hsn'
      by_cases hss : s' = s
      · subst hss
        rw [List.getElem?_set_self (by omega), List.set_append_right _ _ (by omega), hpl, Nat.sub_self, List.set_cons_zero,
          pick_take_succ hsel hlab, rank_succ hsel]
        simp only [if_true, List.append_assoc, List.singleton_append]
        congr 4
        omega
      · have hsel' := subSel_get (v2s := v2s) (s := s') hlt
        rw [List.getElem?_set_ne (Ne.symm hss), hs s' hsn', pick_take_succ hsel' hlab, rank_succ hsel', hfree, hvs]
        simp [Ne.symm hss]

/-- Labelings of the submodels and the labeling of all variables they stand for. -/
structure SubPair (p : Problem V) (fix : List (Option Nat)) (v2s : List Nat) (subconf : List (List Nat)) (x : List Nat) : Prop where
  labeling : p.Labeling x
  respects : Respects fix x
  free : ∀ v s : Nat, ∀ conf : List Nat, v < fix.length → isFree fix v = true → v2s[v]? = some s → subconf[s]? = some conf →
    conf[subRank fix v2s v]? = x[v]?

/-- Values of lists of terms, one labeling each. -/
def subValues (o : Operation V) (qs : List (List (Term (Option V)))) (subconf : List (List Nat)) : List (Option V) :=
  List.zipWith (fun q conf => (q.map (fun u => u.value conf)).foldl (liftOp o).op (some o.neutral)) qs subconf

theorem total_set {o : Operation V} (ho : o.IsCommMonoid) : ∀ (vs : List V) (s : Nat) (a b : V), vs[s]? = some a →
    total o (vs.set s (o.op a b)) = o.op (total o vs) b
  | [], s, a, b, h => by simp at h
  | x :: vs, 0, a, b, h => by
    simp only [List.getElem?_cons_zero, Option.some.injEq] at h
    subst h
    rw [List.set_cons_zero, total_cons ho, total_cons ho, ho.assoc, ho.comm b, ← ho.assoc]
  | x :: vs, s + 1, a, b, h => by
    rw [List.set_cons_succ, total_cons ho, total_cons ho, total_set ho vs s a b (by simpa using h), ho.assoc]

theorem subValues_set (o : Operation V) (qs : List (List (Term (Option V)))) (subconf : List (List Nat)) (s : Nat) (q : List (Term (Option V)))
    (u : Term (Option V)) (conf : List Nat) (hq : qs[s]? = some q) (hc : subconf[s]? = some conf) (vs : List V)
    (hvs : subValues o qs subconf = vs.map some) (b : V) (hu : u.value conf = some b) :
    ∃ a, vs[s]? = some a ∧ subValues o (qs.set s (q ++ [u])) subconf = (vs.set s (o.op a b)).map some := by
  have hval : (subValues o qs subconf)[s]? = some ((q.map (fun u => u.value conf)).foldl (liftOp o).op (some o.neutral)) := by
    unfold subValues
    rw [List.getElem?_zipWith, hq, hc]
  rw [hvs, List.getElem?_map] at hval
  cases ha : vs[s]? with
  | none => rw [ha] at hval; simp at hval
  | some a =>
    rw [ha] at hval
    simp only [Option.map_some, Option.some.injEq] at hval
    refine ⟨a, rfl, ?_⟩
    have hset : subValues o (qs.set s (q ++ [u])) subconf = (subValues o qs subconf).set s (some (o.op a b)) := by
      apply List.ext_getElem?
      intro i
      unfold subValues
      by_cases hi : i = s
      · subst hi
        have hlt : i < (List.zipWith (fun q conf => (q.map (fun u => u.value conf)).foldl (liftOp o).op (some o.neutral)) qs subconf).length := by
          rw [List.length_zipWith]
          have h1 := (List.getElem?_eq_some_iff.mp hq).1
          have h2 := (List.getElem?_eq_some_iff.mp hc).1
          omega
        rw [List.getElem?_set_self hlt, List.getElem?_zipWith, List.getElem?_set_self (List.getElem?_eq_some_iff.mp hq).1, hc]
        simp only [Option.map₂_some_some, List.map_append, List.map_cons, List.map_nil, List.foldl_append, List.foldl_cons, List.foldl_nil, hu, ← hval]
        rfl
      · rw [List.getElem?_set_ne (Ne.symm hi), List.getElem?_zipWith, List.getElem?_zipWith, List.getElem?_set_ne (Ne.symm hi)]
    rw [hset, hvs, List.map_set]

theorem lastSub_const {s : Nat → Nat} {c : Nat} : ∀ (vs : List Nat) (d : Nat), (∀ v ∈ vs, s v = c) → vs ≠ [] → lastSub s vs d = c
  | [], d, _, h => absurd rfl h
  | [v], d, h, _ => by simp [lastSub, h v (by simp)]
  | v :: w :: vs, d, h, _ => by
    unfold lastSub
    exact lastSub_const (w :: vs) _ (fun u hu => h u (by simp [hu])) (by simp)

/-- All submodels represent their lists of terms. -/
structure SubsOk (fix : List (Option Nat)) (v2s numLabels : List Nat) (n : Nat) (subs : List (GM (Option V))) (qs : List (List (Term (Option V)))) : Prop where
  len : subs.length = n
  lenQ : qs.length = n
  rep : ∀ s g q, subs[s]? = some g → qs[s]? = some q → Represents g ⟨pick (subSel fix v2s s) numLabels, q⟩ ∧ g.functions.length = nTypes

theorem SubsOk.step {fix : List (Option Nat)} {v2s numLabels : List Nat} {n : Nat} {subs : List (GM (Option V))} {qs : List (List (Term (Option V)))}
    (h : SubsOk fix v2s numLabels n subs qs) {s : Nat} {g' : GM (Option V)} {q' : List (Term (Option V))}
    (hg : Represents g' ⟨pick (subSel fix v2s s) numLabels, q'⟩) (hgt : g'.functions.length = nTypes) :
    SubsOk fix v2s numLabels n (subs.set s g') (qs.set s q') := by
  refine ⟨by simp [h.len], by simp [h.lenQ], ?_⟩
  intro i g q h1 h2
  by_cases hi : i = s
  · subst hi
    have hlt : i < subs.length := by have := (List.getElem?_eq_some_iff.mp h1).1; simpa using this
    rw [List.getElem?_set_self hlt] at h1
    rw [List.getElem?_set_self (by rw [h.lenQ, ← h.len]; exact hlt)] at h2
    simp only [Option.some.injEq] at h1 h2
    subst h1 h2
    exact ⟨hg, hgt⟩
  · rw [List.getElem?_set_ne (Ne.symm hi)] at h1 h2
    exact h.rep i g q h1 h2

/-- Facts shared by the two modes about one factor: its free variables lie in one submodel, in increasing order. -/
theorem factor_sub {m : Manip V} {p : Problem V} {fix : List (Option Nat)} (hd : Describes m p fix) {count n : Nat} {v2s varMap : List Nat}
    (hcomp : Components p fix count v2s) (hn : count ≤ n) (hn1 : 0 < n)
    (hvm : ∀ v, v < fix.length → isFree fix v = true → varMap[v]? = some (subRank fix v2s v))
    {f : FactorRec} {t : Term V} (ht : t ∈ p.terms) (hm : FactorMatches m.gm f t) :
    ∃ s, s < n ∧ (∀ v ∈ t.vars, isFree fix v = true → v2s[v]? = some s) ∧
      splitLoop m.gm f m.fixVariable m.fixVariableLabel varMap v2s 0 f.visSize [] [] 0 =
        some (fixPairs fix 0 t.vars, (t.vars.filter (isFree fix)).map (subRank fix v2s), s) ∧
      Placed m.gm.numLabels fix (subRank fix v2s) (pick (subSel fix v2s s) p.numLabels) t.vars := by
  have hlabels := hd.rep.labels
  have hfixlen : fix.length = m.gm.numLabels.length := by rw [hlabels, hd.len]
  have hrange : ∀ v ∈ t.vars, v < fix.length := by intro v hv; rw [hfixlen]; exact hm.range v hv
  have hfree : ∀ v ∈ t.vars, isFree fix v = true → Free fix v := fun v hv hf => free_iff.mpr ⟨hrange v hv, hf⟩
  have hsplit := splitLoop_spec hm hd.enc hfixlen (varMap := varMap) (v2s := v2s) (subRank fix v2s) (fun v => v2s.getD v 0)
    (by
      intro v hv hf
      refine ⟨hvm v (hrange v hv) hf, ?_⟩
      obtain ⟨s, _, h⟩ := hcomp.lt v (hfree v hv hf)
      rw [h]
      simp [h]) f.visSize 0 [] [] 0 (by omega)
  simp only [List.nil_append, List.drop_zero] at hsplit
  by_cases hnil : t.vars.filter (isFree fix) = []
  · have hnone : ∀ v ∈ t.vars, isFree fix v = true → False := by
      intro v hv hf
      have := List.filter_eq_nil_iff.mp hnil v hv
      exact this hf
    refine ⟨0, hn1, fun v hv hf => (hnone v hv hf).elim, ?_, fun v hv hf => (hnone v hv hf).elim, fun v hv _ _ hf => (hnone v hv hf).elim⟩
    rw [hsplit, hnil]
    rfl
  · obtain ⟨v0, hv0⟩ := List.exists_mem_of_ne_nil _ hnil
    obtain ⟨hv0m, hv0f⟩ := List.mem_filter.mp hv0
    obtain ⟨s, hs, hvs⟩ := hcomp.lt v0 (hfree v0 hv0m hv0f)
    have hall : ∀ v ∈ t.vars, isFree fix v = true → v2s[v]? = some s := by
      intro v hv hf
      have := (hcomp.connected v0 v (hfree v0 hv0m hv0f) (hfree v hv hf)).mpr
        (Relation.ReflTransGen.single ⟨hfree v0 hv0m hv0f, hfree v hv hf, t, ht, hv0m, hv⟩)
      rw [← this, hvs]
    refine ⟨s, by omega, hall, ?_, ?_, ?_⟩
    · rw [hsplit, lastSub_const (c := s) _ _ _ hnil]
      intro v hv
      obtain ⟨h1, h2⟩ := List.mem_filter.mp hv
      exact getD_of_some (hall v h1 h2)
    · intro v hv hf
      have hvs' := hall v hv hf
      have hsel : (subSel fix v2s s)[v]? = some true := by rw [subSel_get (hrange v hv), hf, hvs']; simp
      rw [subRank, getD_of_some hvs', pick_rank _ _ _ hsel, hlabels]
    · intro v hv w hw hf hfw hlt
      have hvs' := hall v hv hf
      have hws' := hall w hw hfw
      have hsel : (subSel fix v2s s)[v]? = some true := by rw [subSel_get (hrange v hv), hf, hvs']; simp
      rw [subRank, subRank, getD_of_some hvs', getD_of_some hws']
      exact rank_lt hsel hlt

theorem Mirrors.subValue {p : Problem V} {fix : List (Option Nat)} {v2s : List Nat} {t : Term V} {u : Term (Option V)} {s : Nat}
    (h : Mirrors p fix (subRank fix v2s) t u) (hr : ∀ v ∈ t.vars, v < fix.length) (hs : ∀ v ∈ t.vars, isFree fix v = true → v2s[v]? = some s)
    {subconf : List (List Nat)} {x conf : List Nat} (hp : SubPair p fix v2s subconf x) (hc : subconf[s]? = some conf) :
    u.value conf = some (t.value x) :=
  h.2 conf x hp.labeling hp.respects (fun v hv hf => hp.free v s conf (hr v hv) hf (hs v hv hf) hc)

/-- The loop over the factors, mode FIX. -/
theorem buildSubLoop_fix {o : Operation V} (ho : o.IsCommMonoid) {m : Manip V} {p : Problem V} {fix : List (Option Nat)} (hd : Describes m p fix)
    (hmode : m.mode = .fix) (hten : m.tentacleFactor = List.replicate m.gm.factors.length false) {count n : Nat} {v2s varMap : List Nat}
    (hcomp : Components p fix count v2s) (hn : count ≤ n) (hn1 : 0 < n)
    (hvm : ∀ v, v < fix.length → isFree fix v = true → varMap[v]? = some (subRank fix v2s v)) :
    ∀ (fs : List FactorRec) (ts : List (Term V)), List.Forall₂ (FactorMatches m.gm) fs ts → (∀ t ∈ ts, t ∈ p.terms ∧ t.vars ≠ []) →
    ∀ (fi : Nat), fi + fs.length = m.gm.factors.length →
    ∀ (subs : List (GM (Option V))) (qs : List (List (Term (Option V)))) (c : V), SubsOk fix v2s p.numLabels n subs qs →
    ∃ subs' qs' c', buildSubLoop o m v2s varMap fs fi subs c = some (subs', c') ∧ SubsOk fix v2s p.numLabels n subs' qs' ∧
      ∀ subconf x, subconf.length = n → SubPair p fix v2s subconf x → ∀ vs, subValues o qs subconf = vs.map some →
        ∃ vs', subValues o qs' subconf = vs'.map some ∧
          o.op (total o vs') c' = (ts.map (fun t => t.value x)).foldl o.op (o.op (total o vs) c) := by
  intro fs ts hfm
  induction hfm with
  | nil =>
    intro _ fi hfi subs qs c hg
    exact ⟨subs, qs, c, rfl, hg, fun subconf x _ _ vs hvs => ⟨vs, hvs, rfl⟩⟩
  | @cons f t fs ts hm _ ih =>
    intro hterm fi hfi subs qs c hok
    simp only [List.length_cons] at hfi
    have hlabels := hd.rep.labels
    have hfixlen : fix.length = m.gm.numLabels.length := by rw [hlabels, hd.len]
    have hrange : ∀ v ∈ t.vars, v < fix.length := by intro v hv; rw [hfixlen]; exact hm.range v hv
    obtain ⟨htp, hne⟩ := hterm t (by simp)
    obtain ⟨s, hs, hall, hsplit, hpl⟩ := factor_sub hd hcomp hn hn1 hvm htp hm
    have ih' := ih (fun t ht => hterm t (by simp [ht])) (fi + 1) (by omega)
    have hsg : s < subs.length := by rw [hok.len]; exact hs
    have hsq : s < qs.length := by rw [hok.lenQ]; exact hs
    have hgs := List.getElem?_eq_getElem hsg
    have hqs := List.getElem?_eq_getElem hsq
    obtain ⟨hrep, hgt⟩ := hok.rep s _ _ hgs hqs
    have hgl : subs[s].numLabels = pick (subSel fix v2s s) p.numLabels := hrep.labels
    have hpl' : Placed m.gm.numLabels fix (subRank fix v2s) subs[s].numLabels t.vars := by rw [hgl]; exact hpl
    unfold buildSubLoop
    rw [tentacle_step hten (by omega)]
    simp only [hsplit, hmode]
    have cont : ∀ (g' : GM (Option V)) (u : Term (Option V)), Represents g' ⟨pick (subSel fix v2s s) p.numLabels, qs[s] ++ [u]⟩ →
        g'.functions.length = nTypes → Mirrors p fix (subRank fix v2s) t u →
        ∃ subs' qs' c', buildSubLoop o m v2s varMap fs (fi + 1) (subs.set s g') c = some (subs', c') ∧ SubsOk fix v2s p.numLabels n subs' qs' ∧
          ∀ subconf x, subconf.length = n → SubPair p fix v2s subconf x → ∀ vs, subValues o qs subconf = vs.map some →
            ∃ vs', subValues o qs' subconf = vs'.map some ∧
              o.op (total o vs') c' = ((t :: ts).map (fun t => t.value x)).foldl o.op (o.op (total o vs) c) := by
      intro g' u h1 h2 h3
      obtain ⟨subs', qs', c', e1, e2, e3⟩ := ih' (subs.set s g') (qs.set s (qs[s] ++ [u])) c (hok.step h1 h2)
      refine ⟨subs', qs', c', e1, e2, ?_⟩
      intro subconf x hsl hp vs hvs
      have hsc : s < subconf.length := by omega
      have hconf := List.getElem?_eq_getElem hsc
      obtain ⟨a, ha, hsv⟩ := subValues_set o qs subconf s qs[s] u subconf[s] hqs hconf vs hvs (t.value x) (h3.subValue hrange hall hp hconf)
      obtain ⟨vs', e4, e5⟩ := e3 subconf x hsl hp _ hsv
      refine ⟨vs', e4, ?_⟩
      rw [e5, total_set ho vs s a _ ha]
      simp only [List.map_cons, List.foldl_cons]
      congr 1
      rw [ho.assoc, ho.assoc, ho.comm (t.value x) c]
    split
    · rename_i h0
      rw [List.length_map] at h0
      have hnil := List.length_eq_zero_iff.mp h0
      have hallf : ∀ v ∈ t.vars, isFree fix v = false := by
        intro v hv
        have := List.filter_eq_nil_iff.mp hnil v hv
        simpa using this
      obtain ⟨x0, hx0, hx0r⟩ := hd.labeling
      have hac : ∀ x, p.Labeling x → Respects fix x → addConstant o m.gm f m.fixVariableLabel c = some (o.op c (t.value x)) := by
        intro x hx hxr
        exact addConstant_spec o hm hd.enc hfixlen x hxr (by rw [hlabels]; exact hx.1) (by rw [hlabels]; exact hx.2) hallf hne c
      rw [hac x0 hx0 hx0r]
      simp only
      obtain ⟨subs', qs', c', e1, e2, e3⟩ := ih' subs qs (o.op c (t.value x0)) hok
      refine ⟨subs', qs', c', e1, e2, ?_⟩
      intro subconf x hsl hp vs hvs
      obtain ⟨vs', e4, e5⟩ := e3 subconf x hsl hp vs hvs
      refine ⟨vs', e4, ?_⟩
      have : o.op c (t.value x0) = o.op c (t.value x) := by
        have h1 := hac x0 hx0 hx0r
        rw [hac x hp.labeling hp.respects] at h1
        simpa using h1.symm
      rw [e5, this]
      simp only [List.map_cons, List.foldl_cons, ho.assoc]
    · split
      · rename_i _ h0
        obtain ⟨g', u, h1, h2, h3, h4⟩ := addTerm_view hd.rep hm hrep (by rw [hgt]; decide) hpl' (filter_all h0)
        simp only [addSubTerm, hgs, h1, Option.map_some]
        exact cont g' u h2 (by rw [h3, hgt]) h4
      · obtain ⟨g', u, h1, h2, h3, h4⟩ := addTerm_viewFix hd.rep hm hfixlen hrep (by rw [hgt]; decide) hpl' hne
        simp only [addSubTerm, hgs, h1, Option.map_some]
        exact cont g' u h2 (by rw [h3, hgt]) h4

/-- The loop over the factors, mode DROP. -/
theorem buildSubLoop_drop {o : Operation V} (ho : o.IsCommMonoid) {m : Manip V} {p : Problem V} {fix : List (Option Nat)} (hd : Describes m p fix)
    (hmode : m.mode = .drop) (hten : m.tentacleFactor = List.replicate m.gm.factors.length false) {count n : Nat} {v2s varMap : List Nat}
    (hcomp : Components p fix count v2s) (hn : count ≤ n) (hn1 : 0 < n)
    (hvm : ∀ v, v < fix.length → isFree fix v = true → varMap[v]? = some (subRank fix v2s v)) :
    ∀ (fs : List FactorRec) (ts : List (Term V)), List.Forall₂ (FactorMatches m.gm) fs ts → (∀ t ∈ ts, t ∈ p.terms) →
    ∀ (fi : Nat), fi + fs.length = m.gm.factors.length →
    ∀ (subs : List (GM (Option V))) (qs : List (List (Term (Option V)))) (c : V), SubsOk fix v2s p.numLabels n subs qs →
    ∃ subs' qs' c', buildSubLoop o m v2s varMap fs fi subs c = some (subs', c') ∧ SubsOk fix v2s p.numLabels n subs' qs' ∧
      ∀ subconf x, subconf.length = n → SubPair p fix v2s subconf x → ∀ vs, subValues o qs subconf = vs.map some →
        ∃ vs', subValues o qs' subconf = vs'.map some ∧
          total o vs' = ((ts.filter (fun t => t.vars.all (fun v => fix[v]? == some none))).map (fun t => t.value x)).foldl o.op (total o vs) := by
  intro fs ts hfm
  induction hfm with
  | nil =>
    intro _ fi hfi subs qs c hg
    exact ⟨subs, qs, c, rfl, hg, fun subconf x _ _ vs hvs => ⟨vs, hvs, rfl⟩⟩
  | @cons f t fs ts hm _ ih =>
    intro hterm fi hfi subs qs c hok
    simp only [List.length_cons] at hfi
    have hlabels := hd.rep.labels
    have hfixlen : fix.length = m.gm.numLabels.length := by rw [hlabels, hd.len]
    have hrange : ∀ v ∈ t.vars, v < fix.length := by intro v hv; rw [hfixlen]; exact hm.range v hv
    have htp := hterm t (by simp)
    obtain ⟨s, hs, hall, hsplit, hpl⟩ := factor_sub hd hcomp hn hn1 hvm htp hm
    have ih' := ih (fun t ht => hterm t (by simp [ht])) (fi + 1) (by omega)
    have hsg : s < subs.length := by rw [hok.len]; exact hs
    have hsq : s < qs.length := by rw [hok.lenQ]; exact hs
    have hgs := List.getElem?_eq_getElem hsg
    have hqs := List.getElem?_eq_getElem hsq
    obtain ⟨hrep, hgt⟩ := hok.rep s _ _ hgs hqs
    have hgl : subs[s].numLabels = pick (subSel fix v2s s) p.numLabels := hrep.labels
    have hpl' : Placed m.gm.numLabels fix (subRank fix v2s) subs[s].numLabels t.vars := by rw [hgl]; exact hpl
    have hcond : (t.vars.all (fun v => fix[v]? == some none)) = true ↔ ∀ v ∈ t.vars, isFree fix v = true := by
      rw [List.all_eq_true]
      constructor
      · intro h v hv
        have := h v hv
        simp only [beq_iff_eq] at this
        simp [isFree, fx, this]
      · intro h v hv
        have h1 := h v hv
        simp only [isFree, Option.isNone_iff_eq_none] at h1
        simp [fx_none (hrange v hv) h1]
    unfold buildSubLoop
    rw [tentacle_step hten (by omega)]
    simp only [hsplit, hmode]
    split
    · rename_i h0
      obtain ⟨g', u, h1, h2, h3, h4⟩ := addTerm_view hd.rep hm hrep (by rw [hgt]; decide) hpl' (filter_all h0)
      simp only [addSubTerm, hgs, h1, Option.map_some]
      obtain ⟨subs', qs', c', e1, e2, e3⟩ := ih' (subs.set s g') (qs.set s (qs[s] ++ [u])) c (hok.step h2 (by rw [h3, hgt]))
      refine ⟨subs', qs', c', e1, e2, ?_⟩
      intro subconf x hsl hp vs hvs
      have hsc : s < subconf.length := by omega
      have hconf := List.getElem?_eq_getElem hsc
      obtain ⟨a, ha, hsv⟩ := subValues_set o qs subconf s qs[s] u subconf[s] hqs hconf vs hvs (t.value x) (h4.subValue hrange hall hp hconf)
      obtain ⟨vs', e4, e5⟩ := e3 subconf x hsl hp _ hsv
      refine ⟨vs', e4, ?_⟩
      have hpos := hcond.mpr (filter_all h0)
      rw [e5, total_set ho vs s a _ ha]
      simp only [List.filter_cons, hpos, if_true, List.map_cons, List.foldl_cons]
    · rename_i h0
      obtain ⟨subs', qs', c', e1, e2, e3⟩ := ih' subs qs c hok
      refine ⟨subs', qs', c', e1, e2, ?_⟩
      intro subconf x hsl hp vs hvs
      obtain ⟨vs', e4, e5⟩ := e3 subconf x hsl hp vs hvs
      refine ⟨vs', e4, ?_⟩
      have hneg : ¬ (t.vars.all (fun v => fix[v]? == some none)) = true := by
        rw [hcond]
        intro hall
        have := length_fixPairs fix t.vars 0
        rw [List.filter_eq_self.mpr hall] at this
        omega
      rw [e5, List.filter_cons, if_neg hneg]

theorem originalSubLoop_spec {fv : List Bool} {fl v2s : List Nat} {fix : List (Option Nat)} (he : Encodes fv fl fix) {n : Nat}
    (hv2s : ∀ v, v < fix.length → isFree fix v = true → ∃ s, s < n ∧ v2s[v]? = some s) (subconf : List (List Nat)) (x : List Nat)
    (hx : x.length = fix.length) (hres : Respects fix x) (hsl : subconf.length = n)
    (hfree : ∀ v s : Nat, ∀ conf : List Nat, v < fix.length → isFree fix v = true → v2s[v]? = some s → subconf[s]? = some conf →
      conf[subRank fix v2s v]? = x[v]?) :
    ∀ (k var : Nat) (counts : List Nat), var + k = fix.length → counts.length = n →
    (∀ s, s < n → counts[s]? = some (rank (subSel fix v2s s) var)) →
    originalSubLoop fv fl v2s subconf var k counts = some (x.drop var) := by
  intro k
  induction k with
  | zero =>
    intro var counts hv hc h1
    rw [List.drop_eq_nil_of_le (by omega)]
    rfl
  | succ k ih =>
    intro var counts hv hc h1
    have hlt : var < fix.length := by omega
    have hltx : var < x.length := by omega
    have hget := List.getElem?_eq_getElem hltx
    rw [List.drop_eq_getElem_cons hltx]
    unfold originalSubLoop
    cases hf : fx fix var with
    | some l =>
      obtain ⟨g1, g2⟩ := he.fixed var l (fx_some hf)
      have hnf : isFree fix var = false := by simp [isFree, hf]
      have h3 := hres var l (fx_some hf)
      rw [hget] at h3
      simp only [Option.some.injEq] at h3
      rw [g1]
      simp only [g2]
      rw [ih (var + 1) counts (by omega) hc, h3]
      · rfl
      · intro s hs
        rw [h1 s hs, rank_succ (subSel_get hlt), hnf]
        simp
    | none =>
      have g1 := he.free var (fx_none hlt hf)
      have hfr : isFree fix var = true := by simp [isFree, hf]
      obtain ⟨s, hs, hvs⟩ := hv2s var hlt hfr
      have hconf : subconf[s]? = some (subconf[s]'(by omega)) := List.getElem?_eq_getElem _
      have h3 := hfree var s _ hlt hfr hvs hconf
      have hsr : subRank fix v2s var = rank (subSel fix v2s s) var := by rw [subRank, getD_of_some hvs]
      rw [hsr, hget] at h3
      rw [g1]
      simp only [hvs, h1 s hs, hconf, h3]
      rw [ih (var + 1) _ (by omega) (by simpa using hc)]
      · rfl
      · intro s' hs'
        rw [rank_succ (subSel_get hlt), hfr, hvs]
        by_cases hss : s' = s
        · subst hss
          rw [List.getElem?_set_self (by omega)]
          simp
        · rw [List.getElem?_set_ne (Ne.symm hss), h1 s' hs']
          simp [Ne.symm hss]

end Manipulator
end OpenGM
