import Verif.Lemmas.SubWalker
/-
Lemmas about TripleShapeWalker and DoubleShapeWalker.
-/
namespace OpenGM
open Spec
namespace Walkers

/-- What the matching computes: dimension `d` is matched with position `j` of A exactly if they are the same variable. -/
def MatchOK (viAB viA : List Nat) (m : Match) : Prop :=
  m.length = viAB.length ∧ ∀ d j : Nat, m[d]? = some (some j) ↔ ∃ v : Nat, viAB[d]? = some v ∧ viA[j]? = some v

theorem getElem?_drop_zero {α : Type} (l : List α) (k : Nat) : l[k]? = (l.drop k).head? := by
  rw [List.head?_drop]

theorem tripleMatch_spec (viA : List Nat) : ∀ (viAB : List Nat) (counter : Nat), (viA.drop counter).Sublist viAB → viAB.Nodup →
    (tripleMatch viA viAB counter).length = viAB.length ∧ ∀ d j : Nat, (tripleMatch viA viAB counter)[d]? = some (some j) ↔
      counter ≤ j ∧ ∃ v : Nat, viAB[d]? = some v ∧ viA[j]? = some v := by
  intro viAB
  induction viAB with
  | nil => intro counter _ _; simp [tripleMatch]
  | cons v viAB ih =>
    intro counter hsub hnd
    rw [List.nodup_cons] at hnd
    unfold tripleMatch
    rw [getElem?_drop_zero]
    have hmiss : v ∉ viA.drop counter → (viA.drop counter).Sublist viAB →
        (none :: tripleMatch viA viAB counter).length = (v :: viAB).length ∧
        ∀ d j : Nat, (none :: tripleMatch viA viAB counter)[d]? = some (some j) ↔
          counter ≤ j ∧ ∃ w : Nat, (v :: viAB)[d]? = some w ∧ viA[j]? = some w := by
      intro hv hs
      obtain ⟨h1, h2⟩ := ih counter hs hnd.2
      refine ⟨by simp [h1], ?_⟩
      intro d j
      cases d with
      | zero =>
        simp only [List.getElem?_cons_zero, Option.some.injEq, reduceCtorEq, false_iff]
        rintro ⟨hle, w, rfl, hw⟩
        apply hv
        apply List.mem_of_getElem? (i := j - counter)
        rw [List.getElem?_drop, show counter + (j - counter) = j by omega, hw]
      | succ d => simpa using h2 d j
    cases hr : viA.drop counter with
    | nil => simpa [hr] using hmiss (by simp [hr]) (by simp [hr])
    | cons w r =>
      simp only [List.head?_cons]
      rw [hr] at hsub
      by_cases hvw : v = w
      · rw [if_pos hvw]
        subst hvw
        have hsub' : (viA.drop (counter + 1)).Sublist viAB := by
          rw [drop_succ_of hr]
          exact List.cons_sublist_cons.mp hsub
        obtain ⟨h1, h2⟩ := ih (counter + 1) hsub' hnd.2
        have hc : viA[counter]? = some v := by rw [getElem?_drop_zero, hr]; rfl
        refine ⟨by simp [h1], ?_⟩
        intro d j
        cases d with
        | zero =>
          simp only [List.getElem?_cons_zero, Option.some.injEq, exists_eq_left']
          constructor
          · rintro rfl; exact ⟨le_refl _, hc⟩
          · rintro ⟨hle, hj⟩
            by_contra hne
            have : v ∈ viA.drop (counter + 1) := by
              apply List.mem_of_getElem? (i := j - (counter + 1))
              rw [List.getElem?_drop, show counter + 1 + (j - (counter + 1)) = j by omega, hj]
            exact hnd.1 (hsub'.subset this)
        | succ d =>
          simp only [List.getElem?_cons_succ]
          rw [h2 d j]
          constructor
          · rintro ⟨h, x⟩; exact ⟨by omega, x⟩
          · rintro ⟨h, w, hw, hj⟩
            refine ⟨?_, w, hw, hj⟩
            by_contra hne
            have : j = counter := by omega
            subst this
            rw [hc] at hj
            cases hj
            exact hnd.1 (List.mem_of_getElem? hw)
      · rw [if_neg hvw]
        have hs : (w :: r).Sublist viAB := by
          cases hsub with
          | cons _ h => exact h
          | cons_cons _ h => exact absurd rfl hvw
        rw [← hr] at hs
        exact hmiss (fun hmem => hnd.1 (hs.subset hmem)) hs

theorem tripleMatch_ok {viAB viA : List Nat} (hsub : viA.Sublist viAB) (hnd : viAB.Nodup) :
    MatchOK viAB viA (tripleMatch viA viAB 0) := by
  obtain ⟨h1, h2⟩ := tripleMatch_spec viA viAB 0 (by simpa using hsub) hnd
  exact ⟨h1, fun d j => by rw [h2]; simp⟩

theorem doubleScan_miss (v : Nat) : ∀ (ws : List Nat) (i : Nat) (s : Option Nat × Nat), v ∉ ws → doubleScan v ws i s = s
  | [], _, _, _ => rfl
  | w :: ws, i, s, h => by
    simp only [List.mem_cons, not_or] at h
    rw [doubleScan, if_neg h.1, doubleScan_miss v ws (i + 1) s h.2]

theorem doubleMatch_eq (viA : List Nat) : ∀ (viAB : List Nat) (counter : Nat), (viA.drop counter).Sublist viAB → viAB.Nodup →
    doubleMatch viA viAB counter = tripleMatch viA viAB counter := by
  intro viAB
  induction viAB with
  | nil => intro counter _ _; rfl
  | cons v viAB ih =>
    intro counter hsub hnd
    rw [List.nodup_cons] at hnd
    unfold doubleMatch tripleMatch
    rw [getElem?_drop_zero]
    cases hr : viA.drop counter with
    | nil => simp [doubleScan]; exact ih counter (by simp [hr]) hnd.2
    | cons w r =>
      rw [hr] at hsub
      simp only [List.head?_cons, doubleScan]
      by_cases hvw : v = w
      · subst hvw
        have hsub' := List.cons_sublist_cons.mp hsub
        rw [if_pos rfl, if_pos rfl, doubleScan_miss]
        · simp only
          rw [ih (counter + 1) (by rw [drop_succ_of hr]; exact hsub') hnd.2]
        · exact fun h => hnd.1 (hsub'.subset h)
      · have hs : (w :: r).Sublist viAB := by
          cases hsub with
          | cons _ h => exact h
          | cons_cons _ h => exact absurd rfl hvw
        rw [if_neg hvw, if_neg hvw, doubleScan_miss]
        · simp only
          rw [ih counter (by rw [hr]; exact hs) hnd.2]
        · exact fun h => hnd.1 (hs.subset (by simp [h]))

/-- Changing coordinate `d` of AB and following keeps the restriction. -/
theorem follow_spec {viAB viA : List Nat} {m : Match} (hm : MatchOK viAB viA m) (hnd : viAB.Nodup) (hndA : viA.Nodup)
    {ab a : List Nat} (hab : ab.length = viAB.length) (hr : Restricts viAB viA ab a) (d : Nat) (x : Nat) (hx : ab[d]? = some x)
    (change : Nat → Nat) : ∃ a', follow m d change a = some a' ∧ Restricts viAB viA (ab.set d (change x)) a' := by
  have hd : d < ab.length := (List.getElem?_eq_some_iff.mp hx).1
  unfold follow
  have hmd : ∃ o, m[d]? = some o := ⟨_, List.getElem?_eq_getElem (by rw [hm.1, ← hab]; exact hd)⟩
  obtain ⟨o, ho⟩ := hmd
  rw [ho]
  cases o with
  | none =>
    refine ⟨a, rfl, hr.1, ?_⟩
    intro j d' v h1 h2
    have hne : d' ≠ d := by
      rintro rfl
      have := (hm.2 d' j).mpr ⟨v, h2, h1⟩
      rw [ho] at this; simp at this
    rw [List.getElem?_set_ne (by omega)]
    exact hr.2 j d' v h1 h2
  | some j =>
    obtain ⟨v, h1, h2⟩ := (hm.2 d j).mp ho
    have haj : a[j]? = some x := by rw [hr.2 j d v h2 h1, hx]
    have hj : j < a.length := (List.getElem?_eq_some_iff.mp haj).1
    simp only [haj]
    rw [setAt_of_lt _ hj]
    refine ⟨_, rfl, by simp [hr.1], ?_⟩
    intro j' d' v' g1 g2
    by_cases hjj : j' = j
    · subst hjj
      rw [h2] at g1
      cases g1
      have : d' = d := by
        obtain ⟨l1, e1⟩ := List.getElem?_eq_some_iff.mp g2
        obtain ⟨l2, e2⟩ := List.getElem?_eq_some_iff.mp h1
        exact (List.Nodup.getElem_inj_iff hnd).mp (e1.trans e2.symm)
      subst this
      rw [List.getElem?_set_self hj, List.getElem?_set_self hd]
    · have hdd : d' ≠ d := by
        rintro rfl
        rw [h1] at g2
        cases g2
        obtain ⟨l1, e1⟩ := List.getElem?_eq_some_iff.mp g1
        obtain ⟨l2, e2⟩ := List.getElem?_eq_some_iff.mp h2
        exact hjj ((List.Nodup.getElem_inj_iff hndA).mp (e1.trans e2.symm))
      rw [List.getElem?_set_ne (by omega), List.getElem?_set_ne (by omega)]
      exact hr.2 j' d' v' g1 g2

/-- The odometer with wrap-around. -/
def odoWrap : List Nat → List Nat → List Nat
  | n :: shape, d :: t => if d + 1 < n then (d + 1) :: t else 0 :: odoWrap shape t
  | _, t => t

theorem odoWrap_eq : ∀ (s t : List Nat), InShape s t →
    odoWrap s t = (odoNext s t).getD (List.replicate s.length 0)
  | [], [], _ => rfl
  | [], _ :: _, h => by simp [InShape] at h
  | _ :: _, [], h => by simp [InShape] at h
  | n :: s, x :: t, h => by
    simp only [odoWrap, odoNext]
    split
    · rfl
    · rw [odoWrap_eq s t h.2]
      cases odoNext s t <;> simp [List.replicate_succ]

theorem tripleLoop_aux {viAB viA viB : List Nat} {mA mB : Match} (hA : MatchOK viAB viA mA) (hB : MatchOK viAB viB mB)
    (hnd : viAB.Nodup) (hndA : viA.Nodup) (hndB : viB.Nodup) : ∀ (s t preN pre a b : List Nat), pre.length = preN.length →
    InShape s t → (pre ++ t).length = viAB.length → Restricts viAB viA (pre ++ t) a → Restricts viAB viB (pre ++ t) b →
    ∃ a' b', tripleLoop (preN ++ s) mA mB (List.range' pre.length s.length) ⟨pre ++ t, a, b⟩ =
      some ⟨pre ++ odoWrap s t, a', b'⟩ ∧ Restricts viAB viA (pre ++ odoWrap s t) a' ∧ Restricts viAB viB (pre ++ odoWrap s t) b'
  | [], [], _, pre, a, b, _, _, _, ha, hb => ⟨a, b, by simp [tripleLoop, odoWrap], ha, hb⟩
  | [], _ :: _, _, _, _, _, _, h, _, _, _ => by simp [InShape] at h
  | _ :: _, [], _, _, _, _, _, h, _, _, _ => by simp [InShape] at h
  | n :: s, x :: t, preN, pre, a, b, hp, hs, hl, ha, hb => by
    rw [List.length_cons, List.range'_succ]
    unfold tripleLoop
    have h1 : (pre ++ x :: t)[pre.length]? = some x := by simp
    have h2 : (preN ++ n :: s)[pre.length]? = some n := by rw [hp]; simp
    have hset : ∀ y, (pre ++ x :: t).set pre.length y = pre ++ y :: t := by intro y; simp
    simp only
    rw [h1, h2]
    simp only
    have hx := hs.1
    simp only [odoWrap]
    by_cases hd : x + 1 < n
    · rw [if_pos (by omega), if_pos hd, setAt_append]
      obtain ⟨a', e1, e2⟩ := follow_spec hA hnd hndA hl ha pre.length x h1 (· + 1)
      obtain ⟨b', e3, e4⟩ := follow_spec hB hnd hndB hl hb pre.length x h1 (· + 1)
      rw [e1, e3]
      rw [hset] at e2 e4
      exact ⟨a', b', rfl, e2, e4⟩
    · rw [if_neg (by omega), if_neg hd, setAt_append]
      obtain ⟨a', e1, e2⟩ := follow_spec hA hnd hndA hl ha pre.length x h1 (fun _ => 0)
      obtain ⟨b', e3, e4⟩ := follow_spec hB hnd hndB hl hb pre.length x h1 (fun _ => 0)
      rw [e1, e3]
      rw [hset] at e2 e4
      obtain ⟨a'', b'', g1, g2, g3⟩ := tripleLoop_aux hA hB hnd hndA hndB s t (preN ++ [n]) (pre ++ [0]) a' b' (by simp [hp]) hs.2
        (by simpa using hl) (by simpa using e2) (by simpa using e4)
      exact ⟨a'', b'', by simpa using g1, by simpa using g2, by simpa using g3⟩

theorem restricts_zero (viAB viA : List Nat) :
    Restricts viAB viA (List.replicate viAB.length 0) (List.replicate viA.length 0) := by
  refine ⟨by simp, ?_⟩
  intro j d v h1 h2
  have := (List.getElem?_eq_some_iff.mp h1).1
  have := (List.getElem?_eq_some_iff.mp h2).1
  rw [List.getElem?_replicate, List.getElem?_replicate, if_pos (by assumption), if_pos (by assumption)]

theorem sublist_of_sorted {a b : List Nat} (ha : StrictlySorted a) (hb : StrictlySorted b) (h : ∀ x ∈ a, x ∈ b) : a.Sublist b := by
  induction b generalizing a with
  | nil =>
    cases a with
    | nil => simp
    | cons x a => have := h x (by simp); simp at this
  | cons y b ih =>
    cases a with
    | nil => simp
    | cons x a =>
      unfold StrictlySorted at ha hb ih
      rw [List.pairwise_cons] at ha hb
      have hx := h x (by simp)
      have hrest : ∀ z ∈ a, z ≠ y := by
        intro z hz hzy
        have h1 := ha.1 z hz
        simp only [List.mem_cons] at hx
        rcases hx with hx | hx
        · omega
        · have := hb.1 x hx; omega
      by_cases hxy : x = y
      · subst hxy
        apply List.Sublist.cons_cons
        apply ih ha.2 hb.2
        intro z hz
        have := h z (by simp [hz])
        simp only [List.mem_cons] at this
        rcases this with this | this
        · exact absurd this (hrest z hz)
        · exact this
      · apply List.Sublist.cons
        apply ih (List.pairwise_cons.mpr ha) hb.2
        intro z hz
        have := h z hz
        simp only [List.mem_cons] at this hz
        rcases this with this | this
        · subst this
          rcases hz with hz | hz
          · exact absurd hz.symm hxy
          · exact absurd rfl (hrest z hz)
        · exact this

theorem nodup_of_sorted {a : List Nat} (h : StrictlySorted a) : a.Nodup := h.imp (fun h => Nat.ne_of_lt h)

/-- Iterated wrap-around odometer: the `k`-th tuple is `allTuples[k mod size]`. -/
theorem odoWrap_mod (shape : List Nat) (hp : Positive shape) (k : Nat) (t : List Nat) (h : (allTuples shape)[k % shape.prod]? = some t) :
    (allTuples shape)[(k + 1) % shape.prod]? = some (odoWrap shape t) := by
  obtain ⟨h1, h2⟩ := odo_chain shape hp
  have hin : InShape shape t := (mem_allTuples shape t).mp (List.mem_of_getElem? h)
  have hlen := length_allTuples shape
  have hpos : 0 < shape.prod := by
    rw [← hlen]; exact List.length_pos_iff.mpr (by intro he; rw [he] at h; simp at h)
  rw [odoWrap_eq shape t hin]
  have hlt := Nat.mod_lt k hpos
  by_cases hk : k % shape.prod + 1 < shape.prod
  · have : (k + 1) % shape.prod = k % shape.prod + 1 := by
      rw [Nat.add_mod]
      have : 1 % shape.prod = 1 := Nat.mod_eq_of_lt (by omega)
      rw [this, Nat.mod_eq_of_lt hk]
    rw [this]
    have := List.isChain_iff_getElem.mp h1 (k % shape.prod) (by rw [hlen]; exact hk)
    rw [List.getElem?_eq_getElem (by rw [hlen]; exact hlt)] at h
    cases h
    rw [this, List.getElem?_eq_getElem (by rw [hlen]; exact hk)]
    rfl
  · have heq : (k + 1) % shape.prod = 0 := by
      have : k % shape.prod + 1 = shape.prod := by omega
      rw [Nat.add_mod]
      by_cases h1p : shape.prod = 1
      · rw [h1p]; omega
      · have : 1 % shape.prod = 1 := Nat.mod_eq_of_lt (by omega)
        rw [this, show k % shape.prod + 1 = shape.prod by omega, Nat.mod_self]
    have hlast : (allTuples shape).getLast? = some t := by
      rw [List.getLast?_eq_getElem?, hlen, show shape.prod - 1 = k % shape.prod by omega, h]
    rw [heq, h2 t hlast]
    obtain ⟨rest, hr⟩ := zeros_head shape hp
    rw [hr]
    rfl

theorem tripleNext_spec {shape viAB viA viB : List Nat} (hl : shape.length = viAB.length) (hnd : viAB.Nodup)
    (hA : viA.Sublist viAB) (hB : viB.Sublist viAB) (hp : Positive shape) : ∀ (k : Nat),
    ∃ c, steps (tripleNext shape viAB viA viB) k (tripleInit viAB viA viB) = some c ∧
      (allTuples shape)[k % shape.prod]? = some c.ab ∧ Restricts viAB viA c.ab c.a ∧ Restricts viAB viB c.ab c.b := by
  have hsucc : ∀ {α : Type} (next : α → Option α) (k : Nat) (c : α), steps next (k + 1) c = (steps next k c).bind next := by
    intro α next k
    induction k with
    | zero => intro c; simp [steps]
    | succ k ih =>
      intro c
      conv_lhs => unfold steps
      conv_rhs => unfold steps
      cases next c with
      | none => rfl
      | some c' => simpa using ih c'
  intro k
  induction k with
  | zero =>
    refine ⟨tripleInit viAB viA viB, rfl, ?_, restricts_zero _ _, restricts_zero _ _⟩
    obtain ⟨rest, hr⟩ := zeros_head shape hp
    rw [hr, Nat.zero_mod, hl]
    rfl
  | succ k ih =>
    obtain ⟨c, h1, h2, h3, h4⟩ := ih
    have hin : InShape shape c.ab := (mem_allTuples shape _).mp (List.mem_of_getElem? h2)
    obtain ⟨a', b', e1, e2, e3⟩ := tripleLoop_aux (tripleMatch_ok hA hnd) (tripleMatch_ok hB hnd) hnd (hA.nodup hnd) (hB.nodup hnd)
      shape c.ab [] [] c.a c.b rfl hin (by simp [inShape_length hin, hl]) (by simpa using h3) (by simpa using h4)
    refine ⟨⟨odoWrap shape c.ab, a', b'⟩, ?_, ?_, by simpa using e2, by simpa using e3⟩
    · rw [hsucc, h1]
      simp only [Option.bind_some, tripleNext, List.range_eq_range']
      simpa using e1
    · exact odoWrap_mod shape hp k c.ab h2

/-- The double walker is the triple walker with B = A. -/
theorem doubleLoop_eq (shape : List Nat) (mA : Match) : ∀ (ds : List Nat) (ab a ab' a' b' : List Nat),
    tripleLoop shape mA mA ds ⟨ab, a, a⟩ = some ⟨ab', a', b'⟩ → doubleLoop shape mA ds (ab, a) = some (ab', a') ∧ b' = a' := by
  intro ds
  induction ds with
  | nil =>
    intro ab a ab' a' b' h
    simp only [tripleLoop, Option.some.injEq, Coords.mk.injEq] at h
    obtain ⟨rfl, rfl, rfl⟩ := h
    exact ⟨rfl, rfl⟩
  | cons d ds ih =>
    intro ab a ab' a' b' h
    unfold tripleLoop at h
    unfold doubleLoop
    simp only at h ⊢
    cases h1 : ab[d]? with
    | none => simp [h1] at h
    | some x =>
      cases h2 : shape[d]? with
      | none => simp [h1, h2] at h
      | some n =>
        simp only [h1, h2] at h ⊢
        by_cases hx : x ≠ n - 1
        · rw [if_pos hx] at h ⊢
          cases h3 : setAt ab d (x + 1) with
          | none => simp [h3] at h
          | some y =>
            cases h4 : follow mA d (· + 1) a with
            | none => simp [h3, h4] at h
            | some z =>
              simp only [h3, h4, Option.some.injEq, Coords.mk.injEq] at h ⊢
              obtain ⟨rfl, rfl, rfl⟩ := h
              exact ⟨rfl, rfl⟩
        · rw [if_neg hx] at h ⊢
          cases h3 : setAt ab d 0 with
          | none => simp [h3] at h
          | some y =>
            cases h4 : follow mA d (fun _ => 0) a with
            | none => simp [h3, h4] at h
            | some z =>
              simp only [h3, h4] at h ⊢
              exact ih y z ab' a' b' h

theorem doubleNext_spec {shape viAB viA : List Nat} (hl : shape.length = viAB.length) (hnd : viAB.Nodup)
    (hA : viA.Sublist viAB) (hp : Positive shape) (k : Nat) :
    ∃ c, steps (doubleNext shape viAB viA) k (doubleInit viAB viA) = some c ∧
      (allTuples shape)[k % shape.prod]? = some c.1 ∧ Restricts viAB viA c.1 c.2 := by
  have key : ∀ (k : Nat) (ab a ab' a' b' : List Nat), steps (tripleNext shape viAB viA viA) k ⟨ab, a, a⟩ = some ⟨ab', a', b'⟩ →
      steps (doubleNext shape viAB viA) k (ab, a) = some (ab', a') := by
    intro k
    induction k with
    | zero =>
      intro ab a ab' a' b' h
      simp only [steps, Option.some.injEq, Coords.mk.injEq] at h ⊢
      rw [h.1, h.2.1]
    | succ k ih =>
      intro ab a ab' a' b' h
      unfold steps at h ⊢
      obtain ⟨c, h1, h2⟩ := Option.bind_eq_some_iff.mp h
      obtain ⟨e1, e2⟩ := doubleLoop_eq _ _ _ ab a c.ab c.a c.b h1
      have : doubleNext shape viAB viA (ab, a) = some (c.ab, c.a) := by
        rw [doubleNext, doubleMatch_eq viA viAB 0 (by simpa using hA) hnd]
        exact e1
      rw [this]
      simp only [Option.bind_some]
      apply ih c.ab c.a ab' a' b'
      rw [← h2]
      congr 1
      cases c
      simp only at e2
      rw [e2]
  obtain ⟨c, h1, h2, h3, _⟩ := tripleNext_spec hl hnd hA hA hp k
  exact ⟨(c.ab, c.a), key k _ _ _ _ _ h1, h2, h3⟩

end Walkers
end OpenGM
