import Verif.Model.Movemaker
import Verif.Lemmas.EnergySum
import Verif.Lemmas.Odometer
/-
Lemmas about the Movemaker model.
-/
namespace OpenGM
open Spec

variable {V : Type}

/-- `x` with `vars[j] := ds[j]`. -/
def fill (x : List Nat) : List Nat → List Nat → List Nat
  | v :: vs, d :: ds => (fill x vs ds).set v d
  | _, _ => x

@[simp] theorem length_fill (x : List Nat) : ∀ vars ds : List Nat, (fill x vars ds).length = x.length
  | [], _ => by simp [fill]
  | _ :: _, [] => by simp [fill]
  | v :: vs, d :: ds => by simp [fill, length_fill x vs ds]

theorem fill_other (x : List Nat) : ∀ (vars ds : List Nat) (w : Nat), w ∉ vars → (fill x vars ds)[w]? = x[w]?
  | [], _, _, _ => by simp [fill]
  | _ :: _, [], _, _ => by simp [fill]
  | v :: vs, d :: ds, w, h => by
    simp only [List.mem_cons, not_or] at h
    simp only [fill]
    rw [List.getElem?_set_ne (fun e => h.1 e.symm), fill_other x vs ds w h.2]

theorem fill_at (x : List Nat) : ∀ (vars ds : List Nat) (i v l : Nat), vars.Nodup → (∀ v ∈ vars, v < x.length) →
    vars[i]? = some v → ds[i]? = some l → (fill x vars ds)[v]? = some l
  | [], _, _, _, _, _, _, h, _ => by simp at h
  | _ :: _, [], _, _, _, _, _, _, h => by simp at h
  | v :: vs, d :: ds, 0, w, l, _, hr, h1, h2 => by
    simp only [List.getElem?_cons_zero, Option.some.injEq] at h1 h2
    subst h1 h2
    simp only [fill]
    rw [List.getElem?_set_self (by simpa using hr v (by simp))]
  | v :: vs, d :: ds, i + 1, w, l, hn, hr, h1, h2 => by
    simp only [List.getElem?_cons_succ] at h1 h2
    have hn' := List.nodup_cons.mp hn
    simp only [fill]
    rw [List.getElem?_set_ne]
    · exact fill_at x vs ds i w l hn'.2 (fun u hu => hr u (by simp [hu])) h1 h2
    · rintro rfl; exact hn'.1 (List.mem_of_getElem? h1)

theorem fill_relabelled (x vars ds : List Nat) (hn : vars.Nodup) (hr : ∀ v ∈ vars, v < x.length) :
    Relabelled x vars ds (fill x vars ds) :=
  ⟨length_fill .., fun i v l h1 h2 => fill_at x vars ds i v l hn hr h1 h2, fun v hv => fill_other x vars ds v hv⟩

theorem relabelled_unique {x vars ds y z : List Nat} (hl : ds.length = vars.length) (hy : Relabelled x vars ds y)
    (hz : Relabelled x vars ds z) : y = z := by
  apply List.ext_getElem?
  intro w
  by_cases hw : w ∈ vars
  · obtain ⟨i, hi, rfl⟩ := List.getElem_of_mem hw
    rw [hy.changed i _ _ (List.getElem?_eq_getElem hi) (List.getElem?_eq_getElem (by omega)),
      hz.changed i _ _ (List.getElem?_eq_getElem hi) (List.getElem?_eq_getElem (by omega))]
  · rw [hy.others w hw, hz.others w hw]

theorem fill_set (x : List Nat) (v d : Nat) : ∀ (vs ds : List Nat), v ∉ vs →
    fill (x.set v d) vs ds = (fill x vs ds).set v d
  | [], _, _ => by simp [fill]
  | _ :: _, [], _ => by simp [fill]
  | w :: vs, e :: ds, h => by
    simp only [List.mem_cons, not_or] at h
    simp only [fill]
    rw [fill_set x v d vs ds h.2, List.set_comm _ _ h.1]

theorem fill_labeling {p : Problem V} {x : List Nat} (hx : p.Labeling x) (vars ds : List Nat) (hn : vars.Nodup)
    (hr : ∀ v ∈ vars, v < x.length) (hd : InRange p.numLabels vars ds) : p.Labeling (fill x vars ds) := by
  refine ⟨by rw [length_fill]; exact hx.1, ?_⟩
  intro v l n h1 h2
  by_cases hv : v ∈ vars
  · obtain ⟨i, hi, rfl⟩ := List.getElem_of_mem hv
    have hi' : i < ds.length := by rw [hd.1]; exact hi
    rw [fill_at x vars ds i _ _ hn hr (List.getElem?_eq_getElem hi) (List.getElem?_eq_getElem hi')] at h1
    exact hd.2 i _ l n (List.getElem?_eq_getElem hi) (by rw [List.getElem?_eq_getElem hi', h1]) h2
  · rw [fill_other x vars ds v hv] at h1
    exact hx.2 v l n h1 h2

namespace Movemaker

theorem writeAll_spec : ∀ (vars ds buf : List Nat), vars.Nodup → (∀ v ∈ vars, v < buf.length) →
    ds.length = vars.length → writeAll vars ds buf = some (fill buf vars ds)
  | [], _, buf, _, _, _ => by simp [writeAll, fill]
  | _ :: _, [], _, _, _, h => by simp at h
  | v :: vs, d :: ds, buf, hn, hr, hl => by
    have hn' := List.nodup_cons.mp hn
    unfold writeAll
    rw [setAt_of_lt _ (hr v (by simp))]
    simp only
    rw [writeAll_spec vs ds _ hn'.2 (fun w hw => by simpa using hr w (by simp [hw])) (by simpa using hl)]
    simp only [fill]
    rw [fill_set _ _ _ _ _ hn'.1]

theorem restore_spec (x : List Nat) : ∀ (vars buf : List Nat), (∀ v ∈ vars, v < x.length) → buf.length = x.length →
    (∀ w : Nat, w ∉ vars → buf[w]? = x[w]?) → restore x vars buf = some x
  | [], buf, _, _, h => by
    simp only [restore, Option.some.injEq]
    exact List.ext_getElem? (fun w => h w (by simp))
  | v :: vs, buf, hr, hl, h => by
    have hv := hr v (by simp)
    unfold restore
    rw [List.getElem?_eq_getElem hv]
    simp only
    rw [setAt_of_lt _ (by omega)]
    simp only
    apply restore_spec x vs _ (fun w hw => hr w (by simp [hw])) (by simpa using hl)
    intro w hw
    by_cases e : v = w
    · subst e
      rw [List.getElem?_set_self (by omega), List.getElem?_eq_getElem hv]
    · rw [List.getElem?_set_ne e]
      exact h w (by simp [hw]; exact fun h => e h.symm)

theorem setUnion_spec (a b : List Nat) (ha : a.Pairwise (· < ·)) :
    (setUnion a b).Pairwise (· < ·) ∧ ∀ k, k ∈ setUnion a b ↔ k ∈ b ∨ k ∈ a := by
  have : setUnion a b = RandomAccessSet.insertRange RandomAccessSet.less a b := by
    rw [setUnion, natLess_eq]; rfl
  rw [this]
  exact RandomAccessSet.insertRange_spec b a ha

theorem mapM_getElem (vs x : List Nat) (h : ∀ v ∈ vs, v < x.length) :
    vs.mapM (fun v => x[v]?) = some (restrict x vs) := by
  induction vs with
  | nil => rfl
  | cons v vs ih =>
    have hv := h v (by simp)
    rw [List.mapM_cons, ih (fun w hw => h w (by simp [hw])), List.getElem?_eq_getElem hv]
    simp [restrict, List.getElem?_eq_getElem hv]

theorem factorState_spec {gm : GM V} {f : FactorRec} {t : Term V} (hm : FactorMatches gm f t) (x : List Nat)
    (hl : x.length = gm.numLabels.length) : factorState gm f x = some (restrict x t.vars) := by
  unfold factorState
  rw [hm.visSize]
  have h1 : ∀ (j : Nat), j ∈ List.range t.vars.length →
      ((gm.visAt f j).bind fun vi => x[vi]?) = (fun j => x[t.vars.getD j 0]?) j := by
    intro j hj
    have hj' := List.mem_range.mp hj
    rw [hm.visAt j (by rw [hm.visSize]; exact hj')]
    simp [List.getElem?_eq_getElem hj']
  have : ∀ (l : List Nat) (f g : Nat → Option Nat), (∀ j ∈ l, f j = g j) → l.mapM f = l.mapM g := by
    intro l f g h
    induction l with
    | nil => rfl
    | cons a l ih => rw [List.mapM_cons, List.mapM_cons, h a (by simp), ih (fun j hj => h j (by simp [hj]))]
  rw [this _ _ _ h1]
  have hmap : List.mapM (fun j => x[t.vars.getD j 0]?) (List.range t.vars.length) =
      ((List.range t.vars.length).map (fun j => t.vars.getD j 0)).mapM (fun v => x[v]?) := by
    generalize List.range t.vars.length = l
    induction l with
    | nil => rfl
    | cons a l ih => rw [List.map_cons, List.mapM_cons, List.mapM_cons, ih]
  have hid : (List.range t.vars.length).map (fun j => t.vars.getD j 0) = t.vars := by
    apply List.ext_getElem?
    intro i
    by_cases h : i < t.vars.length
    · simp [List.getElem?_range h, List.getElem?_eq_getElem h]
    · simp [h]
  rw [hmap, hid]
  exact mapM_getElem _ _ (fun v hv => by rw [hl]; exact hm.range v hv)

theorem factorValue_spec (o : Operation V) {gm : GM V} {p : Problem V} (h : Stores gm p) (x : List Nat)
    (hx : p.Labeling x) (f v : Nat) (hf : mentions p.terms v f = true) :
    factorValue gm f x = some (termVal o p x f) := by
  have hlt := mentions_lt hf
  have hlen := h.factors.length_eq
  obtain ⟨t, ht⟩ : ∃ t, p.terms[f]? = some t := ⟨_, List.getElem?_eq_getElem hlt⟩
  obtain ⟨fac, hfac⟩ : ∃ fac, gm.factors[f]? = some fac := ⟨_, List.getElem?_eq_getElem (by omega)⟩
  have hm : FactorMatches gm fac t := by
    have h1 := (List.getElem?_eq_some_iff.mp ht)
    have h2 := (List.getElem?_eq_some_iff.mp hfac)
    obtain ⟨_, rfl⟩ := h1
    obtain ⟨_, rfl⟩ := h2
    exact List.Forall₂.get h.factors _ _
  unfold factorValue
  rw [hfac]
  simp only
  have hl : x.length = gm.numLabels.length := by rw [h.labels]; exact hx.1
  rw [factorState_spec hm x hl]
  simp only
  have := callFactor_spec hm x [] hl (by rw [h.labels]; exact hx.2) (by
    intro hv
    simp [mentions, ht, hv] at hf)
  rw [List.append_nil] at this
  rw [this]
  simp [termVal, ht]

/-- The movemaker holds labeling `x` of problem `p`, between two calls. -/
structure Tracks (o : InvOperation V) (m : Movemaker V) (p : Problem V) (x : List Nat) : Prop where
  stores : Stores m.gm p
  fovLen : m.factorsOfVariable.length = p.numLabels.length
  fov : ∀ v, v < p.numLabels.length →
    m.factorsOfVariable[v]? = some ((List.range p.terms.length).filter (mentions p.terms v))
  labeling : p.Labeling x
  state : m.state = x
  buffer : m.stateBuffer = x
  energy : m.energy = p.energy o.toOperation x

theorem buildFactorsOfVariable_spec {gm : GM V} {p : Problem V} (h : Stores gm p) :
    ∃ fov, buildFactorsOfVariable gm = some fov ∧ fov.length = p.numLabels.length ∧
      ∀ v, v < p.numLabels.length → fov[v]? = some ((List.range p.terms.length).filter (mentions p.terms v)) := by
  obtain ⟨sets, e1, e2, e3⟩ := finalizeLoop_spec gm.factors p.terms h.factors []
    (List.replicate gm.numberOfVariables []) (by simp [GM.numberOfVariables]) (by
      intro v hv
      simp [GM.numberOfVariables, hv])
  rw [h.labels] at e2 e3
  exact ⟨sets, e1, e2, by simpa using e3⟩

theorem sorted_range_filter (n : Nat) (q : Nat → Bool) : ((List.range n).filter q).Pairwise (· < ·) :=
  List.Pairwise.filter _ List.pairwise_lt_range

theorem mem_fov {p : Problem V} {v f : Nat} :
    f ∈ (List.range p.terms.length).filter (mentions p.terms v) ↔ mentions p.terms v f = true := by
  simp only [List.mem_filter, List.mem_range]
  exact ⟨fun h => h.2, fun h => ⟨mentions_lt h, h⟩⟩

section
variable {o : InvOperation V} {m : Movemaker V} {p : Problem V} {x : List Nat}

theorem collect_spec (h : Tracks o m p x) : ∀ (vars ds buf fs : List Nat), vars.Nodup →
    (∀ v ∈ vars, v < x.length) → ds.length = vars.length → buf.length = x.length →
    (∀ v ∈ vars, buf[v]? = x[v]?) → Covers p x buf fs →
    ∃ fs', collect m vars ds buf fs = some (fill buf vars ds, fs') ∧ Covers p x (fill buf vars ds) fs'
  | [], ds, buf, fs, _, _, _, _, _, hc => ⟨fs, by simp [collect, fill], by simpa [fill] using hc⟩
  | _ :: _, [], _, _, _, _, h, _, _, _ => by simp at h
  | v :: vs, d :: ds, buf, fs, hn, hr, hl, hb, heq, hc => by
    have hn' := List.nodup_cons.mp hn
    have hv := hr v (by simp)
    have hfov := h.fov v (by rw [← h.labeling.1]; exact hv)
    unfold collect
    rw [h.state, List.getElem?_eq_getElem hv]
    simp only
    by_cases e : x[v] = d
    · rw [if_neg (by simp [e])]
      have hset : fill buf (v :: vs) (d :: ds) = fill buf vs ds := by
        simp only [fill]
        rw [← fill_set _ _ _ _ _ hn'.1]
        congr 1
        apply List.ext_getElem?
        intro w
        by_cases hw : v = w
        · subst hw
          rw [List.getElem?_set_self (by omega), heq v (by simp), List.getElem?_eq_getElem hv, e]
        · rw [List.getElem?_set_ne hw]
      rw [hset]
      exact collect_spec h vs ds buf fs hn'.2 (fun w hw => hr w (by simp [hw])) (by simpa using hl) hb
        (fun w hw => heq w (by simp [hw])) hc
    · rw [if_pos e, setAt_of_lt _ (by omega), hfov]
      simp only
      obtain ⟨s1, s2⟩ := setUnion_spec fs ((List.range p.terms.length).filter (mentions p.terms v)) hc.sorted
      have := collect_spec h vs ds (buf.set v d) (setUnion fs ((List.range p.terms.length).filter (mentions p.terms v)))
        hn'.2 (fun w hw => hr w (by simp [hw])) (by simpa using hl) (by simpa using hb) (by
          intro w hw
          rw [List.getElem?_set_ne (by rintro rfl; exact hn'.1 hw)]
          exact heq w (by simp [hw]))
        ⟨s1, by
          intro f hf
          rcases (s2 f).mp hf with hf | hf
          · exact ⟨v, mem_fov.mp hf⟩
          · exact hc.has f hf, by
          intro w f hne hm
          rw [s2]
          by_cases hw : v = w
          · subst hw; exact Or.inl (mem_fov.mpr hm)
          · rw [List.getElem?_set_ne hw] at hne
            exact Or.inr (hc.all w f hne hm)⟩
      rw [fill_set _ _ _ _ _ hn'.1] at this
      exact this

theorem updateLoop_spec (ho : o.Laws) (h : Tracks o m p x) (y : List Nat) (hy : p.Labeling y) :
    ∀ (fs : List Nat) (R : V), (∀ f ∈ fs, ∃ v, mentions p.terms v f = true) →
      updateLoop o m y fs (o.op R (total o.toOperation (fs.map (termVal o.toOperation p x)))) =
        some (o.op R (total o.toOperation (fs.map (termVal o.toOperation p y))))
  | [], R, _ => by simp [updateLoop, total]
  | f :: fs, R, hf => by
    obtain ⟨v, hv⟩ := hf f (by simp)
    have hM := ho.toIsCommMonoid
    unfold updateLoop
    rw [h.state, factorValue_spec o.toOperation h.stores y hy f v hv,
      factorValue_spec o.toOperation h.stores x h.labeling f v hv]
    simp only [List.map_cons, total_cons hM]
    set a := termVal o.toOperation p x f
    set b := termVal o.toOperation p y f
    set T := total o.toOperation (fs.map (termVal o.toOperation p x))
    have : o.iop (o.op (o.op R (o.op a T)) b) a = o.op (o.op R b) T := by
      rw [show o.op (o.op R (o.op a T)) b = o.op (o.op (o.op R b) T) a by
        simp only [hM.assoc]
        congr 1
        rw [hM.comm a, hM.assoc, ← hM.assoc T, hM.comm T b, hM.assoc]]
      exact ho.cancel _ _
    rw [this, updateLoop_spec ho h y hy fs _ (fun g hg => hf g (by simp [hg])), hM.assoc]

theorem evaluateFactors_spec (hM : o.toOperation.IsCommMonoid) {gm : GM V} (h : Stores gm p) (y : List Nat) (hy : p.Labeling y) :
    ∀ (fs : List Nat) (R : V), (∀ f ∈ fs, ∃ v, mentions p.terms v f = true) →
      evaluateFactors o gm y fs R = some (o.op R (total o.toOperation (fs.map (termVal o.toOperation p y))))
  | [], R, _ => by simp [evaluateFactors, total, hM.comm R, hM.neutral_left]
  | f :: fs, R, hf => by
    obtain ⟨v, hv⟩ := hf f (by simp)
    unfold evaluateFactors
    rw [factorValue_spec o.toOperation h y hy f v hv]
    simp only
    rw [evaluateFactors_spec hM h y hy fs _ (fun g hg => hf g (by simp [hg]))]
    simp only [List.map_cons, total_cons hM, hM.assoc]

theorem touched_spec (h : Tracks o m p x) : ∀ (vars fs : List Nat), (∀ v ∈ vars, v < x.length) →
    fs.Pairwise (· < ·) → ∃ fs', touched m vars fs = some fs' ∧ fs'.Pairwise (· < ·) ∧
      ∀ f, f ∈ fs' ↔ f ∈ fs ∨ ∃ v ∈ vars, mentions p.terms v f = true
  | [], fs, _, hs => ⟨fs, rfl, hs, by simp⟩
  | v :: vs, fs, hr, hs => by
    unfold touched
    rw [h.fov v (by rw [← h.labeling.1]; exact hr v (by simp))]
    simp only
    obtain ⟨s1, s2⟩ := setUnion_spec fs ((List.range p.terms.length).filter (mentions p.terms v)) hs
    obtain ⟨fs', e1, e2, e3⟩ := touched_spec h vs _ (fun w hw => hr w (by simp [hw])) s1
    refine ⟨fs', e1, e2, fun f => ?_⟩
    rw [e3, s2, mem_fov]
    simp only [List.mem_cons, exists_eq_or_imp]
    tauto

end
end Movemaker
end OpenGM
