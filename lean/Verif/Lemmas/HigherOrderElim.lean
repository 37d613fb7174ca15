import Verif.Lemmas.HigherOrderEnergy
/-
Lemmas on HigherOrderEnergy: the elimination of positive terms.
-/
namespace OpenGM.Hoe
open Spec (monomial polynomial quadraticForm AgreeBelow)
variable {R : Type} [CommRing R] [LinearOrder R] [IsStrictOrderedRing R]

/-- The signs: of the records before `vi` only quadratic terms are positive; of the others no term with a variable from `n` on is positive. -/
def SignOK (n vi j : Nat) (t : HTerm R) : Prop := (j < vi → t.coeff ≤ 0 ∨ t.vars.length = 2) ∧ (vi ≤ j → ∀ v ∈ t.vars, n ≤ v → t.coeff ≤ 0)
def Signs (n vi : Nat) (h : HOE R) : Prop := ∀ j r, h.varRecords[j]? = some r → ∀ t ∈ r.terms, SignOK n vi j t

/-- AddTerm keeps what all terms of the record satisfy, if the new and the merged term satisfy it. -/
theorem Added.forall {D : Nat} {h h' : HOE R} {c : R} {v : Nat} {vs : List Nat} (ha : Added D h c v vs h') (P : Nat → HTerm R → Prop)
    (hP : ∀ j r, h.varRecords[j]? = some r → ∀ t ∈ r.terms, P j t)
    (hnew : vs ≠ [] → P v ⟨c, v :: vs⟩) (hmerge : vs ≠ [] → ∀ u : HTerm R, u.vars = v :: vs → P v u → P v ⟨u.coeff + c, v :: vs⟩) :
    ∀ j r, h'.varRecords[j]? = some r → ∀ t ∈ r.terms, P j t := by
  intro j r' hj t ht
  by_cases hjv : j = v
  · subst hjv
    have hlen : j < h.varRecords.length := by rw [← ha.len]; exact (List.getElem?_eq_some_iff.1 hj).1
    obtain ⟨r1, h1, h2, h3, h4⟩ := ha.same _ (List.getElem?_eq_getElem hlen)
    rw [hj] at h1
    cases h1
    have hold := hP j _ (List.getElem?_eq_getElem hlen)
    by_cases hc : c = 0
    · rw [h2 hc] at ht; exact hold t ht
    · by_cases hvs : vs = []
      · rw [h3 hvs] at ht; exact hold t ht
      · rw [h4 hc hvs] at ht
        exact insertTerm_forall (P j) c (j :: vs) (hnew hvs) (fun u hu hp => hmerge hvs u hu hp) _ hold t ht
  · rw [ha.other j hjv] at hj
    exact hP j r' hj t ht



theorem mono_append_one (x : Nat → Bool) (c : R) (vs : List Nat) (v : Nat) : monomial x c (vs ++ [v]) = if x v then monomial x c vs else 0 := by
  unfold monomial
  cases hx : x v <;> simp [hx]
theorem mono_cons_one (x : Nat → Bool) (c : R) (vs : List Nat) (v : Nat) : monomial x c (v :: vs) = if x v then monomial x c vs else 0 := by
  unfold monomial
  cases hx : x v <;> simp [hx]
theorem mono_bounds (x : Nat → Bool) (c : R) (hc : 0 ≤ c) (vs : List Nat) : 0 ≤ monomial x c vs ∧ monomial x c vs ≤ c := by
  unfold monomial
  split
  · exact ⟨hc, le_refl _⟩
  · exact ⟨le_refl _, hc⟩

theorem pairwise_snoc {vs : List Nat} {n : Nat} (h : vs.Pairwise (· < ·)) (hn : ∀ v ∈ vs, v < n) : (vs ++ [n]).Pairwise (· < ·) := by
  rw [List.pairwise_append]
  refine ⟨h, by simp, ?_⟩
  intro a ha b hb
  rw [List.mem_singleton] at hb
  rw [hb]; exact hn a ha

theorem eraseTerm_spec {D n i : Nat} {r : VarRecord R} (hr : RecOK D n i r) {kept ts : List (HTerm R)} {t : HTerm R} (ht : r.terms = kept ++ t :: ts) :
    RecOK D n i (eraseTerm r t.vars.length (kept ++ ts)) ∧ (eraseTerm r t.vars.length (kept ++ ts)).terms = kept ++ ts ∧
      ∀ x, recVal x (eraseTerm r t.vars.length (kept ++ ts)) = recVal x r - termVal x t := by
  have hsub : ∀ u ∈ kept ++ ts, u ∈ r.terms := by
    intro u hu
    rw [ht]
    simp only [List.mem_append, List.mem_cons] at hu ⊢
    tauto
  have e1 := hr.quad; have e2 := hr.high; have e3 := hr.deg
  rw [ht] at e1 e2 e3
  simp only [quadCount, highCount, degCount, List.map_append, List.map_cons, List.sum_append, List.sum_cons] at e1 e2 e3
  unfold eraseTerm
  split
  · rename_i hl
    rw [if_pos hl] at e1 e2 e3
    refine ⟨⟨hr.id, fun u hu => hr.terms u (hsub u hu), ?_, ?_, ?_⟩, rfl, ?_⟩
    · simp only [quadCount, List.map_append, List.sum_append]; omega
    · simp only [highCount, List.map_append, List.sum_append]; omega
    · simp only [degCount, List.map_append, List.sum_append]; omega
    · intro x
      simp only [recVal, ht, termsVal_append, termsVal_cons]; ring
  · rename_i hl
    rw [if_neg hl] at e1 e2 e3
    refine ⟨⟨hr.id, fun u hu => hr.terms u (hsub u hu), ?_, ?_, ?_⟩, rfl, ?_⟩
    · simp only [quadCount, List.map_append, List.sum_append]; omega
    · simp only [highCount, List.map_append, List.sum_append]; omega
    · simp only [degCount, List.map_append, List.sum_append]; omega
    · intro x
      simp only [recVal, ht, termsVal_append, termsVal_cons]; ring

/-- One variable: `f` is the sum of the positive terms without the variable, `S` the sum of their coefficients. -/
theorem elimTerms_spec (D n vi np : Nat) (hvn : vi < n) (hnp : n ≤ np) : ∀ (ts kept : List (HTerm R)) (sum : R) (h : HOE R) (r : VarRecord R),
    OK D h → np + 1 = h.varCounter → h.varRecords[vi]? = some r → r.terms = kept ++ ts → (∀ t ∈ kept, t.coeff ≤ 0) → (∀ t ∈ ts, ∀ v ∈ t.vars, v < np) → Signs n vi h →
    ∃ S h' r', elimTerms D vi np ts kept sum h = some (sum + S, h') ∧ OK D h' ∧ h'.varCounter = h.varCounter ∧ h'.constantTerm = h.constantTerm ∧ h'.varRecords[vi]? = some r' ∧ (∀ t ∈ r'.terms, t.coeff ≤ 0) ∧
      Signs n vi h' ∧
      ∃ f : (Nat → Bool) → R, ∀ x, 0 ≤ f x ∧ f x ≤ S ∧ hoeVal x h' = hoeVal x h + (f x - (if x np then f x else 0) - (if x vi then f x else 0))
  | [], kept, sum, h, r, hk, hc, hr, hrt, hkept, _, hs => by
    refine ⟨0, h, r, by simp [elimTerms], hk, rfl, rfl, hr, ?_, hs, fun _ => 0, ?_⟩
    · rw [hrt]; simpa using hkept
    · intro x; simp
  | t :: ts, kept, sum, h, r, hk, hc, hr, hrt, hkept, hts, hs => by
    have hmem : t ∈ r.terms := by rw [hrt]; simp
    obtain ⟨w, ws, hvars, hinc, hrange, hdeg⟩ := (hk.recs vi r hr).terms t hmem
    by_cases hpos : t.coeff > 0
    · -- all variables are old ones
      have hold : ∀ v ∈ t.vars, v < n := by
        intro v hv
        by_contra hcon
        exact absurd ((hs vi r hr t hmem).2 (le_refl _) v hv (by omega)) (not_le.2 hpos)
      have hvlt := hts t (by simp)
      have hinc' := hinc
      rw [hvars, List.pairwise_cons] at hinc'
      have hwvi : vi < w := hinc'.1 w (by simp)
      have hv1 : ValidVars D h.varCounter (w :: ws) := by
        refine ⟨hinc'.2, fun v hv => hrange v (by rw [hvars]; simp [hv]), ?_⟩
        rw [hvars] at hdeg; simp only [List.length_cons] at hdeg ⊢; omega
      obtain ⟨h1, ha1, had1⟩ := addTerm_spec hk t.coeff w ws hv1
      have hv2 : ValidVars D h1.varCounter (w :: (ws ++ [np])) := by
        refine ⟨?_, ?_, ?_⟩
        · have := pairwise_snoc hinc'.2 (n := np) (fun v hv => hvlt v (by rw [hvars]; simp [hv]))
          simpa using this
        · intro v hv
          rw [had1.counter, ← hc]
          have : v ∈ w :: ws ∨ v = np := by simpa [or_assoc] using hv
          rcases this with e | e
          · have := hvlt v (by rw [hvars]; simp [e]); omega
          · omega
        · rw [hvars] at hdeg; simp only [List.length_cons, List.length_append, List.length_nil] at hdeg ⊢; omega
      obtain ⟨h2, ha2, had2⟩ := addTerm_spec had1.ok (-t.coeff) w (ws ++ [np]) hv2
      have hne : vi ≠ w := by omega
      have hr2 : h2.varRecords[vi]? = some r := by rw [had2.other vi hne, had1.other vi hne, hr]
      have hlt2 := (List.getElem?_eq_some_iff.1 hr2).1
      have her := eraseTerm_spec (had2.ok.recs vi r hr2) hrt
      set r3 := eraseTerm r t.vars.length (kept ++ ts) with hr3
      have hk3 := had2.ok.setRec vi r3 her.1
      set h3 : HOE R := { h2 with varRecords := h2.varRecords.set vi r3 } with hh3
      have hs1 : Signs n vi h1 := by
        refine had1.forall (SignOK n vi) hs ?_ ?_
        · intro _
          refine ⟨fun e => absurd e (by omega), fun _ v hv hnv => ?_⟩
          exact absurd (hold v (by rw [hvars]; simp only [List.mem_cons] at hv ⊢; tauto)) (by omega)
        · intro _ u _ _
          refine ⟨fun e => absurd e (by omega), fun _ v hv hnv => ?_⟩
          exact absurd (hold v (by rw [hvars]; simp only [List.mem_cons] at hv ⊢; tauto)) (by omega)
      have hs2 : Signs n vi h2 := by
        refine had2.forall (SignOK n vi) hs1 ?_ ?_
        · intro _
          refine ⟨fun e => absurd e (by omega), fun _ v hv hnv => ?_⟩
          simp only []; linarith
        · intro _ u hu hpu
          refine ⟨fun e => absurd e (by omega), fun _ v hv hnv => ?_⟩
          have := hpu.2 (by omega) v (by rw [hu]; exact hv) hnv
          simp only []; linarith
      have hs3 : Signs n vi h3 := by
        intro j r' hj u hu
        simp only [hh3, List.getElem?_set] at hj
        split at hj
        · rename_i hij
          cases hj
          rw [← hij]
          refine hs2 vi r hr2 u ?_
          rw [her.2.1] at hu
          rw [hrt]
          simp only [List.mem_append, List.mem_cons] at hu ⊢
          tauto
        · exact hs2 j r' hj u hu
      have hr3' : h3.varRecords[vi]? = some r3 := by simp [hh3, hlt2]
      obtain ⟨S, h', r', g1, g2, g3, g3', g4, g5, g6, f, hf⟩ := elimTerms_spec D n vi np hvn hnp ts kept (sum + t.coeff) h3 r3 hk3 (by simp only [hh3]; rw [had2.counter, had1.counter]; exact hc) hr3' her.2.1 hkept
        (fun u hu => hts u (by simp [hu])) hs3
      refine ⟨t.coeff + S, h', r', ?_, g2, ?_, ?_, g4, g5, g6, fun x => monomial x t.coeff (w :: ws) + f x, ?_⟩
      · unfold elimTerms
        rw [if_pos hpos]
        have e1 : t.vars.length = (vi :: w :: ws).length := by rw [hvars]
        simp only [hvars, List.head?_cons, Option.some.injEq, if_neg (Ne.symm hne), ha1, List.cons_append, ha2, hr2]
        rw [← e1, ← hr3, ← hh3, g1]
        congr 2
        ring
      · rw [g3]; simp only [hh3]; rw [had2.counter, had1.counter]
      · rw [g3']; simp only [hh3]; rw [had2.constant, had1.constant]
      · intro x
        obtain ⟨f1, f2, f3⟩ := hf x
        have hb := mono_bounds x t.coeff (le_of_lt hpos) (w :: ws)
        refine ⟨by linarith, by linarith, ?_⟩
        have hv3 : hoeVal x h3 = hoeVal x h2 - termVal x t := by
          simp only [hoeVal, hh3]
          rw [sum_set (recVal x) _ vi r3 r hr2, her.2.2 x]
          ring
        rw [f3, hv3, had2.val, had1.val]
        have m2 : monomial x (-t.coeff) (w :: (ws ++ [np])) = - (if x np then monomial x t.coeff (w :: ws) else 0) := by
          rw [mono_neg, ← List.cons_append, mono_append_one]
        have m3 : termVal x t = if x vi then monomial x t.coeff (w :: ws) else 0 := by
          rw [termVal, hvars, mono_cons_one]
        rw [m2, m3]
        split <;> split <;> ring
    · obtain ⟨S, h', r', g1, rest⟩ := elimTerms_spec D n vi np hvn hnp ts (kept ++ [t]) sum h r hk hc hr (by rw [hrt]; simp)
        (by intro u hu; rcases List.mem_append.1 hu with e | e
            · exact hkept u e
            · rw [List.mem_singleton] at e; rw [e]; exact not_lt.1 hpos) (fun u hu => hts u (by simp [hu])) hs
      exact ⟨S, h', r', by unfold elimTerms; rw [if_neg hpos]; exact g1, rest⟩

/-- The loop over the variables: the value does not get smaller, and is the same where each new variable is the complement of the old one. -/
theorem elimLoop_spec (D n : Nat) (hD : 2 ≤ D) : ∀ (k vi : Nat) (h : HOE R), vi + k = n → OK D h → h.varCounter = n + vi → Signs n vi h →
    ∃ h', elimLoop D vi k h = some h' ∧ OK D h' ∧ h'.varCounter = n + n ∧ h'.constantTerm = h.constantTerm ∧ Signs n n h' ∧
      (∀ x, hoeVal x h ≤ hoeVal x h') ∧ (∀ x : Nat → Bool, (∀ i, vi ≤ i → i < n → x (n + i) = !x i) → hoeVal x h' = hoeVal x h)
  | 0, vi, h, hvi, hk, hc, hs => by
    have : vi = n := by omega
    subst this
    exact ⟨h, rfl, hk, hc, rfl, hs, fun _ => le_refl _, fun _ _ => rfl⟩
  | k + 1, vi, h, hvi, hk, hc, hs => by
    obtain ⟨a1, a2, a3, a4, a5, a6⟩ := addVar_spec hk
    have hnp : (addVar h).1 = n + vi := by rw [a2, hc]
    have hvic : vi < h.varCounter := by omega
    obtain ⟨r, hr⟩ := hk.get hvic
    have hr1 : (addVar h).2.varRecords[vi]? = some r := by rw [a5 vi hvic, hr]
    have hs1 : Signs n vi (addVar h).2 := by
      intro j r' hj t ht
      by_cases hjc : j < h.varCounter
      · rw [a5 j hjc] at hj
        exact hs j r' hj t ht
      · have hj2 : j = h.varCounter := by
          have e1 := a1.size
          have := (List.getElem?_eq_some_iff.1 hj).1
          omega
        subst hj2
        rw [a6 r' hj] at ht
        simp at ht
    obtain ⟨S, h2, r2, b1, b2, b3, b3', b4, b5, b6, f, hf⟩ := elimTerms_spec D n vi (n + vi) (by omega) (by omega) r.terms [] 0 (addVar h).2 r a1 (by rw [a3, hc]) hr1 rfl (by simp)
      (by intro t ht v hv
          obtain ⟨_, _, _, _, hrange, _⟩ := (hk.recs vi r hr).terms t ht
          have := hrange v hv
          omega) hs1
    have hid : r.id = vi := (hk.recs vi r hr).id
    have hv : ValidVars D h2.varCounter (vi :: [n + vi]) := by
      refine ⟨by simp; omega, ?_, by simpa using hD⟩
      intro v hv
      rw [b3, a3, hc]
      simp at hv
      omega
    obtain ⟨h3, c1, had⟩ := addTerm_spec b2 S vi [n + vi] hv
    have hs3 : Signs n (vi + 1) h3 := by
      have hold : ∀ j r, h2.varRecords[j]? = some r → ∀ t ∈ r.terms, SignOK n (vi + 1) j t := by
        intro j r' hj t ht
        refine ⟨fun hlt => ?_, fun hle => (b6 j r' hj t ht).2 (by omega)⟩
        by_cases hjv : j = vi
        · subst hjv
          rw [b4] at hj; cases hj
          exact Or.inl (b5 t ht)
        · exact (b6 j r' hj t ht).1 (by omega)
      refine had.forall (SignOK n (vi + 1)) hold ?_ ?_
      · intro _; exact ⟨fun _ => Or.inr rfl, fun e => absurd e (by omega)⟩
      · intro _ u hu _; exact ⟨fun _ => Or.inr rfl, fun e => absurd e (by omega)⟩
    obtain ⟨h', d1, d2, d3, d3', d4, d5, d6⟩ := elimLoop_spec D n hD k (vi + 1) h3 (by omega) had.ok (by rw [had.counter, b3, a3, hc]; omega) hs3
    have hval : ∀ x, hoeVal x h3 = hoeVal x h + (f x - (if x (n + vi) then f x else 0) - (if x vi then f x else 0)) + monomial x S [vi, n + vi] := by
      intro x
      rw [had.val, (hf x).2.2, a4]
    refine ⟨h', ?_, d2, d3, ?_, d4, ?_, ?_⟩
    · unfold elimLoop
      simp only [hr1, hnp, hid]
      rw [show (0 : R) + S = S from zero_add S] at b1
      rw [b1]
      simp only [c1]
      exact d1
    · rw [d3', had.constant, b3']; rfl
    · intro x
      refine le_trans ?_ (d5 x)
      rw [hval x]
      obtain ⟨f1, f2, _⟩ := hf x
      unfold monomial
      cases hx1 : x vi <;> cases hx2 : x (n + vi) <;> simp [hx1, hx2] <;> linarith
    · intro x hx
      rw [d6 x (fun i h1 h2 => hx i (by omega) h2), hval x]
      have := hx vi (le_refl _) (by omega)
      unfold monomial
      cases hx1 : x vi <;> simp [hx1, this]

/-- All terms of more than two variables are negative afterwards. -/
theorem eliminate_spec {D : Nat} (hD : 2 ≤ D) {h : HOE R} (hk : OK D h) :
    ∃ h', eliminatePositiveTerms D h = some h' ∧ OK D h' ∧ h'.varCounter = h.varCounter + h.varCounter ∧ h'.constantTerm = h.constantTerm ∧
      (∀ r ∈ h'.varRecords, ∀ t ∈ r.terms, t.vars.length = 2 ∨ t.coeff ≤ 0) ∧ (∀ x, hoeVal x h ≤ hoeVal x h') ∧
      (∀ x : Nat → Bool, (∀ i, i < h.varCounter → x (h.varCounter + i) = !x i) → hoeVal x h' = hoeVal x h) := by
  obtain ⟨h', a1, a2, a3, a4, a5, a6, a7⟩ := elimLoop_spec D h.varCounter hD h.varCounter 0 h (by omega) hk (by omega) (by
    intro j r hj t ht
    refine ⟨fun e => absurd e (by omega), fun _ v hv hn => ?_⟩
    obtain ⟨_, _, _, _, hrange, _⟩ := (hk.recs j r hj).terms t ht
    exact absurd (hrange v hv) (by omega))
  refine ⟨h', by unfold eliminatePositiveTerms; rw [hk.size]; exact a1, a2, a3, a4, ?_, a6, fun x hx => a7 x (fun i _ h2 => hx i h2)⟩
  intro r hr t ht
  obtain ⟨j, hj⟩ := List.getElem?_of_mem hr
  have hsg := a5 j r hj t ht
  by_cases hjn : j < h.varCounter
  · exact (hsg.1 hjn).symm
  · obtain ⟨w, ws, hvars, _⟩ := (a2.recs j r hj).terms t ht
    exact Or.inr (hsg.2 (by omega) j (by rw [hvars]; simp) (by omega))

end OpenGM.Hoe
