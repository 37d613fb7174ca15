import Verif.Lemmas.MoveSearch
/-
moveOptimally and moveOptimallyWithAllLabelsChanging as a whole.
-/
namespace OpenGM
open Spec

variable {V : Type}

namespace Movemaker

theorem zeroAll_spec : ∀ (vars buf : List Nat), vars.Nodup → (∀ v ∈ vars, v < buf.length) →
    zeroAll vars buf = some (fill buf vars (List.replicate vars.length 0))
  | [], buf, _, _ => by simp [zeroAll, fill]
  | v :: vs, buf, hn, hr => by
    have hn' := List.nodup_cons.mp hn
    unfold zeroAll
    rw [setAt_of_lt _ (hr v (by simp))]
    simp only
    rw [zeroAll_spec vs _ hn'.2 (fun w hw => by simpa using hr w (by simp [hw])), fill_set _ _ _ _ _ hn'.1]
    simp [fill, List.replicate_succ]

theorem readAll_fill : ∀ (vars c x : List Nat), vars.Nodup → (∀ v ∈ vars, v < x.length) → c.length = vars.length →
    readAll (fill x vars c) vars = some c
  | [], c, x, _, _, hl => by
    have : c = [] := by simpa using hl
    simp [readAll, this]
  | _ :: _, [], _, _, _, hl => by simp at hl
  | v :: vs, d :: c, x, hn, hr, hl => by
    have hn' := List.nodup_cons.mp hn
    have ih := readAll_fill vs c (x.set v d) hn'.2 (fun w hw => by simpa using hr w (by simp [hw])) (by simpa using hl)
    unfold readAll at ih ⊢
    rw [fill_set _ _ _ _ _ hn'.1] at ih
    rw [List.mapM_cons]
    simp only [fill]
    rw [ih, List.getElem?_set_self (by simpa using hr v (by simp))]
    rfl

theorem initChanging_spec (gm : GM V) (st : List Nat) : ∀ (vars : List Nat) (j : Nat) (buf : List Nat), vars.Nodup →
    (∀ v ∈ vars, v < buf.length) → gm.numLabels.length = buf.length → st.length = buf.length →
    (∀ v ∈ vars, gm.numLabels.getD v 0 ≠ 1) →
    initChanging gm st vars j buf =
      some (fill buf vars (List.zipWith skip (restrict st vars) (List.replicate vars.length 0)), true)
  | [], _, buf, _, _, _, _, _ => by simp [initChanging, fill]
  | v :: vs, j, buf, hn, hr, hl, hst, h1 => by
    have hn' := List.nodup_cons.mp hn
    have hv := hr v (by simp)
    have hne := h1 v (by simp)
    have hnl : gm.numLabels[v]? = some (gm.numLabels.getD v 0) := by
      simp [List.getElem?_eq_getElem (by omega : v < gm.numLabels.length)]
    have hsv : st[v]? = some (st.getD v 0) := by simp [List.getElem?_eq_getElem (by omega : v < st.length)]
    unfold initChanging
    rw [hnl]
    simp only
    rw [if_neg hne, hsv]
    simp only
    rw [setAt_of_lt _ hv]
    simp only
    rw [initChanging_spec gm st vs (j + 1) _ hn'.2 (fun w hw => by simpa using hr w (by simp [hw])) (by simpa using hl)
      (by simpa using hst) (fun w hw => h1 w (by simp [hw])), fill_set _ _ _ _ _ hn'.1]
    have h0 : (if st.getD v 0 = 0 then 1 else 0) = skip (st.getD v 0) 0 := by unfold skip; split_ifs <;> omega
    simp only [restrict, List.length_cons, List.replicate_succ, List.map_cons, List.zipWith_cons_cons, fill]
    rw [h0]

theorem searchFuel_eq (gm : GM V) (vars : List Nat) : searchFuel gm vars = (restrict gm.numLabels vars).prod := by
  unfold searchFuel restrict
  induction vars with
  | nil => rfl
  | cons v vs ih => simp only [List.map_cons, List.foldr_cons, List.prod_cons, ih]

theorem prod_pred_le (l : List Nat) : (l.map (· - 1)).prod ≤ l.prod := by
  induction l with
  | nil => simp
  | cons a l ih => simp only [List.map_cons, List.prod_cons]; exact Nat.mul_le_mul (Nat.sub_le a 1) ih

section
variable {o : InvOperation V} {m : Movemaker V} {p : Problem V} {x : List Nat}

/-- Sum of the terms `fs`. -/
abbrev part (o : InvOperation V) (p : Problem V) (fs y : List Nat) : V := total o.toOperation (fs.map (termVal o.toOperation p y))

theorem commit_spec (hM : o.toOperation.IsCommMonoid) (bop : V → V → Bool) (reeval : V → Bool)
    (hrep : Replaceable o bop reeval) (h : Tracks o m p x) (vars fs : List Nat) (hn : vars.Nodup)
    (hr : ∀ v ∈ vars, v < x.length) (c : List Nat) (hc : InRange p.numLabels vars c)
    (hcov : Covers p x (fill x vars c) fs) (buf : List Nat) (hbl : buf.length = x.length)
    (hb : ∀ w : Nat, w ∉ vars → buf[w]? = x[w]?)
    (hbetter : bop (part o p fs (fill x vars c)) (part o p fs x) = true) :
    ∃ m', commit o bop reeval m vars (part o p fs x) (part o p fs (fill x vars c)) c buf =
        some (p.energy o.toOperation (fill x vars c), m') ∧ Tracks o m' p (fill x vars c) ∧ m'.gm = m.gm := by
  have hy := fill_labeling h.labeling vars c hn hr hc
  have hbuf : fill buf vars c = fill x vars c :=
    relabelled_unique (x := x) hc.1 ⟨by simp [hbl], fun i v l h1 h2 => fill_at buf vars c i v l hn (by rw [hbl]; exact hr) h1 h2,
      fun v hv => by rw [fill_other _ _ _ _ hv, hb v hv]⟩ (fill_relabelled x vars c hn hr)
  unfold commit
  rw [if_pos hbetter, h.state, writeAll_spec _ _ _ hn hr hc.1, writeAll_spec _ _ _ hn (by rw [hbl]; exact hr) hc.1, hbuf]
  simp only
  by_cases hre : reeval m.energy = true
  · rw [if_pos hre, evaluate_spec _ h.stores _ hy]
    exact ⟨_, rfl, ⟨h.stores, h.fovLen, h.fov, hy, rfl, rfl, rfl⟩, rfl⟩
  · rw [if_neg hre]
    have e : o.op (o.iop m.energy (part o p fs x)) (part o p fs (fill x vars c)) = p.energy o.toOperation (fill x vars c) := by
      rw [hcov.split hM, h.energy, hcov.refl.split hM]
      rw [h.energy, hcov.refl.split hM] at hre
      rw [hrep _ _ _ hbetter (by simpa using hre)]
    refine ⟨{ m with state := fill x vars c, stateBuffer := fill x vars c,
                     energy := p.energy o.toOperation (fill x vars c) }, ?_, ⟨h.stores, h.fovLen, h.fov, hy, rfl, rfl, rfl⟩, rfl⟩
    rw [e]

theorem covers_touched (vars fs y : List Nat) (hs : fs.Pairwise (· < ·))
    (hf : ∀ f, f ∈ fs ↔ f ∈ ([] : List Nat) ∨ ∃ v ∈ vars, mentions p.terms v f = true)
    (hy : ∀ w : Nat, w ∉ vars → y[w]? = x[w]?) : Covers p x y fs where
  sorted := hs
  has := fun f h => by
    rcases (hf f).mp h with h | ⟨v, _, h⟩
    · simp at h
    · exact ⟨v, h⟩
  all := fun v f hne hm => by
    rw [hf]
    by_cases hv : v ∈ vars
    · exact Or.inr ⟨v, hv, hm⟩
    · exact absurd (hy v hv).symm hne

/-- Search over the candidates `fill x vars (r c)` and commit. -/
theorem optimise_core (hM : o.toOperation.IsCommMonoid) (bop : V → V → Bool) (hso : StrictOrder bop) (reeval : V → Bool)
    (hrep : Replaceable o bop reeval) (h : Tracks o m p x) (vars fs : List Nat) (hn : vars.Nodup)
    (hr : ∀ v ∈ vars, v < x.length) (hs : fs.Pairwise (· < ·))
    (hf : ∀ f, f ∈ fs ↔ f ∈ ([] : List Nat) ∨ ∃ v ∈ vars, mentions p.terms v f = true)
    (shape : List Nat) (hp : Positive shape) (r : List Nat → List Nat)
    (hrange : ∀ c, InShape shape c → InRange p.numLabels vars (r c))
    (incr : List Nat → Option (Option (List Nat)))
    (hi : ∀ c, InShape shape c → incr (fill x vars (r c)) = some ((odoNext shape c).map (fun u => fill x vars (r u))))
    (fuel : Nat) (hfuel : shape.prod ≤ fuel) (bs : List Nat) :
    ∃ y m', (match searchLoop o bop m.gm fs vars incr fuel (fill x vars (r (List.replicate shape.length 0)))
          (part o p fs x) bs with
        | none => none
        | some (best, bestState, buf') => commit o bop reeval m vars (part o p fs x) best bestState buf') =
      some (p.energy o.toOperation y, m') ∧ Tracks o m' p y ∧ m'.gm = m.gm ∧
      (y = x ∨ (∃ c, InShape shape c ∧ y = fill x vars (r c)) ∧ bop (part o p fs y) (part o p fs x) = true) ∧
      ∀ c, InShape shape c → bop (part o p fs (fill x vars (r c))) (part o p fs y) = false := by
  have hcov : ∀ c, InShape shape c → Covers p x (fill x vars (r c)) fs := fun c _ =>
    covers_touched vars fs _ hs hf (fun w hw => fill_other _ _ _ _ hw)
  obtain ⟨u, hu, e⟩ := searchLoop_spec o bop m.gm fs vars incr (fun c => fill x vars (r c)) r
    (fun c => part o p fs (fill x vars (r c))) shape hp fuel (part o p fs x) bs hi
    (by
      intro c hc
      rw [evaluateFactors_spec hM h.stores _ (fill_labeling h.labeling vars _ hn hr (hrange c hc)) fs _ (hcov c hc).has,
        hM.neutral_left])
    (fun c hc => readAll_fill vars (r c) x hn hr (hrange c hc).1) hfuel
  rw [e]
  simp only
  obtain ⟨b1, b2⟩ := best_spec bop hso (fun c => part o p fs (fill x vars (r c))) r (part o p fs x) (allTuples shape)
    (part o p fs x, bs) [] (by simp) (Or.inl rfl)
  simp only [List.nil_append] at b1 b2
  have hbl : (fill x vars (r u)).length = x.length := length_fill ..
  have hbo : ∀ w : Nat, w ∉ vars → (fill x vars (r u))[w]? = x[w]? := fun w hw => fill_other _ _ _ _ hw
  generalize hres : (allTuples shape).foldl (bestStep bop (fun c => part o p fs (fill x vars (r c))) r) (part o p fs x, bs) = res
    at b1 b2
  rcases b2 with b2 | ⟨b2, c, hc, hcr⟩
  · refine ⟨x, { m with stateBuffer := x }, ?_, ⟨h.stores, h.fovLen, h.fov, h.labeling, h.state, rfl, h.energy⟩, rfl, Or.inl rfl, ?_⟩
    · unfold commit
      rw [b2, if_neg (by rw [hso.irrefl]; simp), h.state, restore_spec x vars _ hr hbl hbo]
      simp [h.energy]
    · intro c hc
      have := b1 c ((mem_allTuples shape c).mpr hc)
      rwa [b2] at this
  · have hc' := (mem_allTuples shape c).mp hc
    rw [hcr] at b1 b2 ⊢
    obtain ⟨m', e1, e2, e3⟩ := commit_spec hM bop reeval hrep h vars fs hn hr (r c) (hrange c hc') (hcov c hc') _ hbl hbo b2
    exact ⟨_, m', e1, e2, e3, Or.inr ⟨⟨c, hc', rfl⟩, b2⟩, fun d hd => b1 d ((mem_allTuples shape d).mpr hd)⟩

theorem inRange_of_InShape (nl : List Nat) : ∀ (vars c : List Nat), InShape (restrict nl vars) c → InRange nl vars c := by
  intro vars c h
  refine ⟨by rw [InShape_length _ _ h]; simp [restrict], ?_⟩
  induction vars generalizing c with
  | nil => intro i v l n h1; simp at h1
  | cons v vs ih =>
    cases c with
    | nil => simp [restrict, InShape] at h
    | cons d c =>
      simp only [restrict, List.map_cons, InShape] at h
      intro i w l n h1 h2 h3
      cases i with
      | zero =>
        simp only [List.getElem?_cons_zero, Option.some.injEq] at h1 h2
        subst h1 h2
        simpa [h3] using h.1
      | succ i =>
        simp only [List.getElem?_cons_succ] at h1 h2
        exact ih c h.2 i w l n h1 h2 h3

theorem InShape_of_inRange (nl : List Nat) : ∀ (vars c : List Nat), (∀ v ∈ vars, v < nl.length) → InRange nl vars c →
    InShape (restrict nl vars) c
  | [], [], _, _ => by simp [restrict, InShape]
  | [], _ :: _, _, h => by have := h.1; simp at this
  | _ :: _, [], _, h => by have := h.1; simp at this
  | v :: vs, d :: c, hr, h => by
    have hv := hr v (by simp)
    simp only [restrict, List.map_cons, InShape]
    refine ⟨?_, InShape_of_inRange nl vs c (fun w hw => hr w (by simp [hw])) ⟨by simpa using h.1, ?_⟩⟩
    · have := h.2 0 v d nl[v] (by simp) (by simp) (List.getElem?_eq_getElem hv)
      simpa [List.getElem?_eq_getElem hv] using this
    · intro i w l n h1 h2 h3
      exact h.2 (i + 1) w l n (by simpa using h1) (by simpa using h2) h3

/-- A labeling that agrees with `x` outside `vars` is `x` relabelled. -/
theorem eq_fill_of_agree {z vars : List Nat} (hz : AgreeOutside vars x z) (hn : vars.Nodup)
    (hr : ∀ v ∈ vars, v < x.length) : z = fill x vars (restrict z vars) := by
  apply relabelled_unique (x := x) (vars := vars) (ds := restrict z vars) (by simp [restrict]) _ (fill_relabelled x vars _ hn hr)
  refine ⟨hz.1, ?_, hz.2⟩
  intro i v l h1 h2
  simp only [restrict, List.getElem?_map, h1, Option.map_some, Option.some.injEq] at h2
  have hv := hr v (List.mem_of_getElem? h1)
  rw [← hz.1] at hv
  simpa [List.getElem?_eq_getElem hv] using h2

theorem restrict_inRange {z : List Nat} (hz : p.Labeling z) (vars : List Nat) (hr : ∀ v ∈ vars, v < z.length) :
    InRange p.numLabels vars (restrict z vars) := by
  refine ⟨by simp [restrict], ?_⟩
  intro i v l n h1 h2 h3
  simp only [restrict, List.getElem?_map, h1, Option.map_some, Option.some.injEq] at h2
  have hv := hr v (List.mem_of_getElem? h1)
  refine hz.2 v l n ?_ h3
  simpa [List.getElem?_eq_getElem hv] using h2

theorem agree_fill {vars : List Nat} (c : List Nat) : AgreeOutside vars x (fill x vars c) :=
  ⟨length_fill .., fun w hw => fill_other _ _ _ _ hw⟩

theorem part_of_energy (hM : o.toOperation.IsCommMonoid) (bop : V → V → Bool) (hrefl : Reflects o.toOperation bop)
    {fs y z : List Nat} (hy : Covers p x y fs) (hz : Covers p x z fs)
    (h : bop (part o p fs z) (part o p fs y) = false) :
    bop (p.energy o.toOperation z) (p.energy o.toOperation y) = false := by
  by_contra hcon
  rw [hy.split hM, hz.split hM] at hcon
  have := hrefl _ _ _ (by simpa using hcon)
  rw [h] at this
  simp at this

/-- `moveOptimally`. -/
theorem moveOptimally_spec (hM : o.toOperation.IsCommMonoid) (bop : V → V → Bool) (hso : StrictOrder bop)
    (hrefl : Reflects o.toOperation bop) (reeval : V → Bool) (hrep : Replaceable o bop reeval) (h : Tracks o m p x)
    (vars : List Nat) (h0 : vars ≠ []) (hn : vars.Nodup) (hr : ∀ v ∈ vars, v < p.numLabels.length) :
    ∃ y m', moveOptimally o bop reeval m vars = some (p.energy o.toOperation y, m') ∧ Tracks o m' p y ∧ m'.gm = m.gm ∧
      AgreeOutside vars x y ∧
      (∀ z, p.Labeling z → AgreeOutside vars x z →
        bop (p.energy o.toOperation z) (p.energy o.toOperation y) = false) ∧
      (Preserves o.toOperation bop → y = x ∨ bop (p.energy o.toOperation y) (p.energy o.toOperation x) = true) := by
  have hr' : ∀ v ∈ vars, v < x.length := fun v hv => by rw [h.labeling.1]; exact hr v hv
  obtain ⟨fs, f1, f2, f3⟩ := touched_spec h vars [] hr' List.Pairwise.nil
  have hlab := h.stores.labels
  have hp : Positive (restrict p.numLabels vars) := by
    intro n hn
    simp only [restrict, List.mem_map] at hn
    obtain ⟨v, hv, rfl⟩ := hn
    have h1 := hr v hv
    have h2 := hr' v hv
    have := h.labeling.2 v x[v] p.numLabels[v] (List.getElem?_eq_getElem h2) (List.getElem?_eq_getElem h1)
    simp only [List.getD_eq_getElem?_getD, List.getElem?_eq_getElem h1, Option.getD_some]
    omega
  have hlen : (restrict p.numLabels vars).length = vars.length := by simp [restrict]
  obtain ⟨y, m', e1, e2, e3, e4, e5⟩ := optimise_core hM bop hso reeval hrep h vars fs hn hr' f2 f3 (restrict p.numLabels vars) hp
    id (fun c hc => inRange_of_InShape _ _ _ hc) (increment m.gm.numLabels vars)
    (fun c hc => by rw [hlab]; exact increment_spec p.numLabels vars x c h0 hn hr' h.labeling.1.symm hc)
    (searchFuel m.gm vars) (by rw [searchFuel_eq, hlab]) (List.replicate vars.length 0)
  have hagree : AgreeOutside vars x y := by
    rcases e4 with rfl | ⟨⟨c, _, rfl⟩, _⟩
    · exact ⟨rfl, fun _ _ => rfl⟩
    · exact agree_fill _
  refine ⟨y, m', ?_, e2, e3, hagree, ?_, ?_⟩
  · unfold moveOptimally
    rw [f1]
    simp only
    rw [h.state, evaluateFactors_spec hM h.stores x h.labeling fs _
      (covers_touched vars fs x f2 f3 (fun _ _ => rfl)).has, h.buffer, zeroAll_spec vars x hn hr', hM.neutral_left]
    simp only
    rw [hlen] at e1
    exact e1
  · intro z hz hza
    apply part_of_energy hM bop hrefl (covers_touched vars fs y f2 f3 hagree.2) (covers_touched vars fs z f2 f3 hza.2)
    have hz' := eq_fill_of_agree hza hn hr'
    have := e5 (restrict z vars) (InShape_of_inRange _ _ _ hr (restrict_inRange hz vars (by rw [hza.1]; exact hr')))
    simp only [id] at this
    rwa [← hz'] at this
  · intro hpres
    rcases e4 with e4 | ⟨_, e4⟩
    · exact Or.inl e4
    · refine Or.inr ?_
      rw [(covers_touched (p := p) vars fs y f2 f3 hagree.2).split hM,
        (covers_touched (p := p) (x := x) vars fs x f2 f3 (fun _ _ => rfl)).split hM]
      exact hpres _ _ _ e4

/-- All variables in `vars` have a label in `z` different from that in `x`. -/
def AllChanged (vars x z : List Nat) : Prop := ∀ v ∈ vars, z[v]? ≠ x[v]?

theorem skip_ne (s d : Nat) : skip s d ≠ s := by unfold skip; split_ifs <;> omega

theorem skip_inRange (nl st : List Nat) : ∀ (vars t : List Nat), (∀ v ∈ vars, st.getD v 0 < nl.getD v 0) →
    InShape ((restrict nl vars).map (· - 1)) t → InShape (restrict nl vars) (List.zipWith skip (restrict st vars) t)
  | [], [], _, _ => by simp [restrict, InShape]
  | [], _ :: _, _, h => by simp [restrict, InShape] at h
  | _ :: _, [], _, h => by simp [restrict, InShape] at h
  | v :: vs, d :: t, hlt, h => by
    have := hlt v (by simp)
    simp only [restrict, List.map_cons, InShape, List.zipWith_cons_cons] at h ⊢
    refine ⟨?_, skip_inRange nl st vs t (fun w hw => hlt w (by simp [hw])) h.2⟩
    have := h.1
    unfold skip; split_ifs <;> omega

theorem unskip (nl st z : List Nat) : ∀ (vars : List Nat), (∀ v ∈ vars, st.getD v 0 < nl.getD v 0) →
    (∀ v ∈ vars, z.getD v 0 < nl.getD v 0) → (∀ v ∈ vars, z.getD v 0 ≠ st.getD v 0) →
    ∃ t, InShape ((restrict nl vars).map (· - 1)) t ∧ List.zipWith skip (restrict st vars) t = restrict z vars
  | [], _, _, _ => ⟨[], by simp [restrict, InShape]⟩
  | v :: vs, h1, h2, h3 => by
    obtain ⟨t, e1, e2⟩ := unskip nl st z vs (fun w hw => h1 w (by simp [hw])) (fun w hw => h2 w (by simp [hw]))
      (fun w hw => h3 w (by simp [hw]))
    have a1 := h1 v (by simp)
    have a2 := h2 v (by simp)
    have a3 := h3 v (by simp)
    simp only [restrict] at e1 e2 ⊢
    by_cases hlt : z.getD v 0 < st.getD v 0
    · refine ⟨z.getD v 0 :: t, ⟨by simp only; omega, e1⟩, ?_⟩
      simp only [List.map_cons, List.zipWith_cons_cons, e2]
      unfold skip; rw [if_pos hlt]
    · refine ⟨(z.getD v 0 - 1) :: t, ⟨by simp only; omega, e1⟩, ?_⟩
      simp only [List.map_cons, List.zipWith_cons_cons, e2]
      unfold skip; rw [if_neg (by omega)]; congr 1; omega

/-- `moveOptimallyWithAllLabelsChanging`, if every listed variable has at least two labels. -/
theorem moveOptimallyChanging_spec (hM : o.toOperation.IsCommMonoid) (bop : V → V → Bool) (hso : StrictOrder bop)
    (hrefl : Reflects o.toOperation bop) (reeval : V → Bool) (hrep : Replaceable o bop reeval) (h : Tracks o m p x)
    (vars : List Nat) (h0 : vars ≠ []) (hn : vars.Nodup) (hr : ∀ v ∈ vars, ∃ n, p.numLabels[v]? = some n ∧ 2 ≤ n) :
    ∃ y m', moveOptimallyChanging o bop reeval m vars = some (p.energy o.toOperation y, m') ∧ Tracks o m' p y ∧ m'.gm = m.gm ∧
      AgreeOutside vars x y ∧ (y = x ∨ AllChanged vars x y) ∧
      (∀ z, p.Labeling z → AgreeOutside vars x z → AllChanged vars x z →
        bop (p.energy o.toOperation z) (p.energy o.toOperation y) = false) ∧
      (Preserves o.toOperation bop → y = x ∨ bop (p.energy o.toOperation y) (p.energy o.toOperation x) = true) := by
  have hr1 : ∀ v ∈ vars, v < p.numLabels.length := fun v hv => by
    obtain ⟨n, e, _⟩ := hr v hv; exact (List.getElem?_eq_some_iff.mp e).1
  have hr' : ∀ v ∈ vars, v < x.length := fun v hv => by rw [h.labeling.1]; exact hr1 v hv
  have hr2 : ∀ v ∈ vars, 2 ≤ p.numLabels.getD v 0 := fun v hv => by
    obtain ⟨n, e, hn⟩ := hr v hv; simp [e, hn]
  have hlab := h.stores.labels
  have hlt : ∀ z, p.Labeling z → ∀ v ∈ vars, z.getD v 0 < p.numLabels.getD v 0 := by
    intro z hz v hv
    have h1 := hr1 v hv
    have h2 : v < z.length := by rw [hz.1]; exact h1
    have := hz.2 v z[v] p.numLabels[v] (List.getElem?_eq_getElem h2) (List.getElem?_eq_getElem h1)
    simpa [List.getElem?_eq_getElem h2, List.getElem?_eq_getElem h1] using this
  obtain ⟨fs, f1, f2, f3⟩ := touched_spec h vars [] hr' List.Pairwise.nil
  have hp : Positive ((restrict p.numLabels vars).map (· - 1)) := by
    intro n hn
    simp only [restrict, List.mem_map] at hn
    obtain ⟨_, ⟨v, hv, rfl⟩, rfl⟩ := hn
    have := hr2 v hv
    omega
  have hlen : ((restrict p.numLabels vars).map (· - 1)).length = vars.length := by simp [restrict]
  obtain ⟨y, m', e1, e2, e3, e4, e5⟩ := optimise_core hM bop hso reeval hrep h vars fs hn hr' f2 f3
    ((restrict p.numLabels vars).map (· - 1)) hp (fun c => List.zipWith skip (restrict x vars) c)
    (fun c hc => inRange_of_InShape _ _ _ (skip_inRange p.numLabels x vars c (hlt x h.labeling) hc))
    (incrementChanging m.gm.numLabels m.state vars)
    (fun c hc => by
      rw [hlab, h.state]
      exact incrementChanging_spec p.numLabels x vars x c h0 hn hr' h.labeling.1.symm rfl (hlt x h.labeling) hc)
    (searchFuel m.gm vars) (by rw [searchFuel_eq, hlab]; exact prod_pred_le _) (List.replicate vars.length 0)
  have hagree : AgreeOutside vars x y := by
    rcases e4 with rfl | ⟨⟨c, _, rfl⟩, _⟩
    · exact ⟨rfl, fun _ _ => rfl⟩
    · exact agree_fill _
  refine ⟨y, m', ?_, e2, e3, hagree, ?_, ?_, ?_⟩
  · unfold moveOptimallyChanging
    rw [f1]
    simp only
    rw [h.state] at e1 ⊢
    rw [evaluateFactors_spec hM h.stores x h.labeling fs _
      (covers_touched vars fs x f2 f3 (fun _ _ => rfl)).has, h.buffer,
      initChanging_spec m.gm x vars 0 x hn hr' (by rw [hlab, h.labeling.1]) rfl
        (fun v hv => by rw [hlab]; have := hr2 v hv; omega), hM.neutral_left]
    simp only
    rw [hlen] at e1
    exact e1
  · rcases e4 with e4 | ⟨⟨c, hc, rfl⟩, _⟩
    · exact Or.inl e4
    · refine Or.inr ?_
      intro v hv
      obtain ⟨i, hi, rfl⟩ := List.getElem_of_mem hv
      have hcl : c.length = vars.length := by rw [InShape_length _ _ hc, hlen]
      have hci : c[i]? = some c[i] := List.getElem?_eq_getElem (by omega)
      have hx := hr' _ hv
      rw [fill_at x vars (List.zipWith skip (restrict x vars) c) i vars[i] (skip x[vars[i]] c[i]) hn hr'
        (List.getElem?_eq_getElem hi) (by
          simp [List.getElem?_zipWith, hci, restrict, List.getElem?_eq_getElem hi, List.getElem?_eq_getElem hx]),
        List.getElem?_eq_getElem hx]
      simpa using skip_ne _ _
  · intro z hz hza hch
    apply part_of_energy hM bop hrefl (covers_touched vars fs y f2 f3 hagree.2) (covers_touched vars fs z f2 f3 hza.2)
    have hz' := eq_fill_of_agree hza hn hr'
    obtain ⟨t, t1, t2⟩ := unskip p.numLabels x z vars (hlt x h.labeling) (hlt z hz) (by
      intro v hv e
      apply hch v hv
      have h1 := hr' v hv
      have h2 : v < z.length := by rw [hza.1]; exact h1
      simpa [List.getElem?_eq_getElem h1, List.getElem?_eq_getElem h2] using e)
    have := e5 t t1
    rw [t2] at this
    rwa [← hz'] at this
  · intro hpres
    rcases e4 with e4 | ⟨_, e4⟩
    · exact Or.inl e4
    · refine Or.inr ?_
      rw [(covers_touched (p := p) vars fs y f2 f3 hagree.2).split hM,
        (covers_touched (p := p) (x := x) vars fs x f2 f3 (fun _ _ => rfl)).split hM]
      exact hpres _ _ _ e4

/-- `valueAfterMove`: for the multiplier no law is needed, otherwise `iop` must undo `op`. -/
theorem valueAfterMove_spec (mult : Bool) (ho : mult = true ∨ o.Laws) (h : Tracks o m p x)
    (vars ds : List Nat) (hn : vars.Nodup) (hr : ∀ v ∈ vars, v < p.numLabels.length) (hd : InRange p.numLabels vars ds) :
    valueAfterMove o mult m vars ds = some (p.energy o.toOperation (fill x vars ds), m) := by
  have hr' : ∀ v ∈ vars, v < x.length := fun v hv => by rw [h.labeling.1]; exact hr v hv
  have hy := fill_labeling h.labeling vars ds hn hr' hd
  have hm : ∀ e, e = m.energy → (⟨m.gm, m.factorsOfVariable, x, x, e⟩ : Movemaker V) = m := by
    rintro e rfl
    have h1 := h.buffer
    have h2 := h.state
    cases m
    simp only at h1 h2
    rw [h1, h2]
  have hrest := restore_spec x vars (fill x vars ds) hr' (length_fill ..) (fun w hw => fill_other _ _ _ _ hw)
  unfold valueAfterMove
  by_cases hmult : mult = true
  · rw [if_pos hmult, h.buffer, h.state, writeAll_spec vars ds x hn hr' hd.1]
    simp only
    rw [evaluate_spec _ h.stores _ hy, hrest]
    simp [hm _ rfl]
  · rw [if_neg hmult, h.buffer, h.state]
    have hL : o.Laws := by rcases ho with ho | ho; exact absurd ho hmult; exact ho
    obtain ⟨fs, c1, c2⟩ := collect_spec h vars ds x [] hn hr' hd.1 rfl (fun _ _ => rfl)
      ⟨List.Pairwise.nil, by simp, fun _ _ hne => absurd rfl hne⟩
    rw [c1]
    simp only
    rw [h.energy, c2.refl.split hL.toIsCommMonoid, updateLoop_spec hL h _ hy fs _ c2.has, hrest]
    simp only
    rw [c2.split hL.toIsCommMonoid, hm _ (by rw [h.energy, c2.refl.split hL.toIsCommMonoid])]

theorem move_spec (mult : Bool) (ho : mult = true ∨ o.Laws) (h : Tracks o m p x)
    (vars ds : List Nat) (hn : vars.Nodup) (hr : ∀ v ∈ vars, v < p.numLabels.length) (hd : InRange p.numLabels vars ds) :
    ∃ m', move o mult m vars ds = some (p.energy o.toOperation (fill x vars ds), m') ∧ Tracks o m' p (fill x vars ds) ∧
      m'.gm = m.gm := by
  have hr' : ∀ v ∈ vars, v < x.length := fun v hv => by rw [h.labeling.1]; exact hr v hv
  have hy := fill_labeling h.labeling vars ds hn hr' hd
  unfold move
  rw [valueAfterMove_spec mult ho h vars ds hn hr hd]
  simp only
  rw [h.state, h.buffer, writeAll_spec vars ds x hn hr' hd.1]
  exact ⟨_, rfl, ⟨h.stores, h.fovLen, h.fov, hy, rfl, rfl, rfl⟩, rfl⟩

theorem initializeFrom_spec (h : Tracks o m p x) (y : List Nat) (hy : p.Labeling y) :
    ∃ m', initializeFrom o m y = some m' ∧ Tracks o m' p y ∧ m'.gm = m.gm := by
  have hl : m.gm.numberOfVariables = y.length := by simp [GM.numberOfVariables, h.stores.labels, hy.1]
  unfold initializeFrom readLabels
  rw [evaluate_spec _ h.stores _ hy, hl, if_pos le_rfl]
  refine ⟨_, rfl, ⟨h.stores, h.fovLen, h.fov, hy, ?_, ?_, rfl⟩, rfl⟩ <;> simp

/-- Every variable has a label. -/
def HasLabels (p : Problem V) : Prop := ∀ n ∈ p.numLabels, 0 < n

theorem zeros_labeling (hp : HasLabels p) : p.Labeling (List.replicate p.numLabels.length 0) := by
  refine ⟨by simp, ?_⟩
  intro v l n h1 h2
  rw [List.getElem?_replicate] at h1
  split at h1
  · simp only [Option.some.injEq] at h1
    subst h1
    exact hp n (List.mem_of_getElem? h2)
  · simp at h1

theorem reset_spec (hp : HasLabels p) (h : Tracks o m p x) :
    ∃ m', reset o m = some m' ∧ Tracks o m' p (List.replicate p.numLabels.length 0) ∧ m'.gm = m.gm := by
  have hl : m.gm.numberOfVariables = p.numLabels.length := by simp [GM.numberOfVariables, h.stores.labels]
  unfold reset
  simp only
  rw [hl, evaluate_spec _ h.stores _ (zeros_labeling hp)]
  exact ⟨_, rfl, ⟨h.stores, h.fovLen, h.fov, zeros_labeling hp, rfl, rfl, rfl⟩, rfl⟩

theorem ofModel_spec (o : InvOperation V) (hp : HasLabels p) {gm : GM V} (h : Stores gm p) :
    ∃ m, ofModel o gm = some m ∧ Tracks o m p (List.replicate p.numLabels.length 0) ∧ m.gm = gm := by
  have hl : gm.numberOfVariables = p.numLabels.length := by simp [GM.numberOfVariables, h.labels]
  obtain ⟨fov, e1, e2, e3⟩ := buildFactorsOfVariable_spec h
  unfold ofModel
  simp only
  rw [e1, hl, evaluate_spec _ h _ (zeros_labeling hp)]
  exact ⟨_, rfl, ⟨h, e2, e3, zeros_labeling hp, rfl, rfl, rfl⟩, rfl⟩

theorem ofLabels_spec (o : InvOperation V) {gm : GM V} (h : Stores gm p) (y : List Nat) (hy : p.Labeling y) :
    ∃ m, ofLabels o gm y = some m ∧ Tracks o m p y ∧ m.gm = gm := by
  have hl : gm.numberOfVariables = y.length := by simp [GM.numberOfVariables, h.labels, hy.1]
  obtain ⟨fov, e1, e2, e3⟩ := buildFactorsOfVariable_spec h
  unfold ofLabels readLabels
  rw [e1, hl, evaluate_spec _ h _ hy, if_pos le_rfl]
  refine ⟨_, rfl, ⟨h, e2, e3, hy, ?_, ?_, rfl⟩, rfl⟩ <;> simp

end
end Movemaker
end OpenGM
