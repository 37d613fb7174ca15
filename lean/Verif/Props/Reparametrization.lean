import Verif.Lemmas.ReparametrizationArc
/-
C74: LP reparametrization.
-/
namespace OpenGM
open Spec Repa
open scoped BigOperators
variable {V : Type} [CommRing V] [LinearOrder V]

/-- The storages that a user can reach for a model: the constructor, writes through the iterators, and deserialize, also when it throws. -/
inductive RepaReachable (gm : GM V) : Storage V → Prop
  | construct {s : Storage V} (h : construct gm = some s) : RepaReachable gm s
  | write {s s' : Storage V} {j n l : Nat} {x : V} (hs : RepaReachable gm s) (h : s.write j n l x = some s') : RepaReachable gm s'
  | read {s s' : Storage V} {ser : List V} (hs : RepaReachable gm s) (h : s.deserialize ser = .ok () s') : RepaReachable gm s'
  | failed {s s' : Storage V} {ser : List V} (hs : RepaReachable gm s) (h : s.deserialize ser = .throw s') : RepaReachable gm s'

/-- The entries of a storage: what the reads of the user give. -/
def Entries (p : Problem V) (s : Storage V) (lam : Nat → Nat → Nat → V) : Prop :=
  ∀ (j n v l : Nat) (t : Term V), p.terms[j]? = some t → 2 ≤ t.vars.length → t.vars[n]? = some v → l < p.numLabels.getD v 0 → s.get j n l = some (lam j n l)

section
variable {gm : GM V} {p : Problem V} {s : Storage V}

theorem repa_inv (hb : BuiltModel gm p) (h : RepaReachable gm s) : StorageInv gm p s ∧ ∃ s0, construct gm = some s0 ∧ s.localIds = s0.localIds := by
  have hs := hb.represents.toStores
  induction h with
  | construct h =>
    obtain ⟨s0, e1, e2, _⟩ := construct_spec hs
    rw [h] at e1; cases e1
    exact ⟨e2, _, h, rfl⟩
  | write _ h ih =>
    obtain ⟨h1, h2⟩ := write_inv ih.1 h
    exact ⟨h1, by rw [h2]; exact ih.2⟩
  | @read s s' ser _ h ih =>
    by_cases hl : ser.length = s.serialize.length
    · obtain ⟨d, e1, _, e3⟩ := deserialize_ok hs ih.1 ser hl
      rw [h] at e1; cases e1
      exact ⟨ih.1.replace e3, ih.2⟩
    · obtain ⟨d, e1, _⟩ := deserialize_throw hs ih.1 ser hl
      rw [h] at e1; cases e1
  | @failed s s' ser _ h ih =>
    by_cases hl : ser.length = s.serialize.length
    · obtain ⟨d, e1, _, e3⟩ := deserialize_ok hs ih.1 ser hl
      rw [h] at e1; cases e1
    · obtain ⟨d, e1, e3⟩ := deserialize_throw hs ih.1 ser hl
      rw [h] at e1; cases e1
      exact ⟨ih.1.replace e3, ih.2⟩

theorem sum_zipIdx (g : Term V → Nat → V) (d : Term V) : ∀ (ts : List (Term V)) (k : Nat), ((ts.zipIdx k).map (fun e => g e.1 e.2)).sum = ∑ j ∈ Finset.range ts.length, g (ts.getD j d) (k + j)
  | [], k => by simp
  | t :: ts, k => by
    rw [List.zipIdx_cons, List.map_cons, List.sum_cons, sum_zipIdx g d ts (k + 1), List.length_cons, Finset.sum_range_succ']
    simp only [List.getD_cons_succ, List.getD_cons_zero, Nat.add_zero]
    rw [add_comm]
    congr 1
    apply Finset.sum_congr rfl
    intro j _
    congr 1
    omega

theorem varVal_eq (hs : Stores gm p) (s : Storage V) (v l : Nat) : varVal s p v l = p.newVariableValue (D s) v l := by
  unfold Problem.newVariableValue
  rw [sum_zipIdx (fun t j => if t.vars = [v] then t.table [l] else if v ∈ t.vars then - D s j (t.vars.idxOf v) l else 0) ⟨[], fun _ => 0⟩, varVal_range, Finset.sum_filter]
  apply Finset.sum_congr rfl
  intro j hj
  rw [Finset.mem_range] at hj
  have ht := termAt_get hj
  change (if v ∈ (termAt p j).vars then contrib s p j v l else 0) = if (termAt p j).vars = [v] then (termAt p j).table [l] else if v ∈ (termAt p j).vars then - D s (0 + j) ((termAt p j).vars.idxOf v) l else 0
  rw [Nat.zero_add]
  unfold contrib
  rw [ht]
  simp only
  by_cases h1 : (termAt p j).vars = [v]
  · rw [if_pos h1, if_pos (by rw [h1]; simp), if_pos (by rw [h1]; rfl)]
  · rw [if_neg h1]
    by_cases h2 : v ∈ (termAt p j).vars
    · rw [if_pos h2, if_pos h2, if_neg]
      intro h3
      obtain ⟨a, ha⟩ := List.length_eq_one_iff.mp h3
      rw [ha] at h2
      simp only [List.mem_singleton] at h2
      exact h1 (by rw [ha, h2])
    · rw [if_neg h2, if_neg h2]

omit [LinearOrder V] in
theorem dualSum_eq (s : Storage V) (j : Nat) : ∀ (c : List Nat) (n : Nat), dualSum s j n c = ((c.zipIdx n).map (fun e => D s j e.2 e.1)).sum
  | [], n => by simp [dualSum]
  | l :: c, n => by
    rw [List.zipIdx_cons, List.map_cons, List.sum_cons, ← dualSum_eq s j c (n + 1)]
    rfl

theorem entries_D (hb : BuiltModel gm p) (h : StorageInv gm p s) : Entries p s (D s) := fun _ _ _ _ _ h1 h2 h3 h4 => get_spec hb.represents.toStores h h1 h2 h3 h4

theorem newVariableValue_congr (hb : BuiltModel gm p) (h : StorageInv gm p s) {lam : Nat → Nat → Nat → V} (he : Entries p s lam) {v l : Nat} (hl : l < p.numLabels.getD v 0) :
    p.newVariableValue (D s) v l = p.newVariableValue lam v l := by
  unfold Problem.newVariableValue
  congr 1
  apply List.map_congr_left
  intro e he'
  have ht : p.terms[e.2]? = some e.1 := by
    have := List.mem_zipIdx_iff_getElem?.mp he'
    exact this
  split
  · rfl
  · split
    · rename_i h1 h2
      have hidx := List.idxOf_lt_length_of_mem h2
      have hget : e.1.vars[e.1.vars.idxOf v]? = some v := by rw [List.getElem?_eq_getElem hidx, List.getElem_idxOf hidx]
      have h3 : 2 ≤ e.1.vars.length := by
        have : e.1.vars.length ≠ 1 := by
          intro h3
          obtain ⟨a, ha⟩ := List.length_eq_one_iff.mp h3
          rw [ha] at h2
          simp only [List.mem_singleton] at h2
          exact h1 (by rw [ha, h2])
        have := List.length_pos_of_mem h2
        omega
      have e1 := entries_D hb h _ _ _ _ _ ht h3 hget hl
      rw [he _ _ _ _ _ ht h3 hget hl] at e1
      rw [Option.some.inj e1]
    · rfl

theorem inShape_at : ∀ {vs c nl : List Nat}, InShape (restrict nl vs) c → ∀ {i v l : Nat}, vs[i]? = some v → c[i]? = some l → l < nl.getD v 0
  | [], c, nl, _, i, v, l, h1, _ => by simp at h1
  | w :: vs, [], nl, h, _, _, _, _, _ => h.elim
  | w :: vs, a :: c, nl, h, 0, v, l, h1, h2 => by
    simp only [List.getElem?_cons_zero, Option.some.injEq] at h1 h2
    subst h1 h2
    exact h.1
  | w :: vs, a :: c, nl, h, i + 1, v, l, h1, h2 => by
    simp only [List.getElem?_cons_succ] at h1 h2
    exact inShape_at h.2 h1 h2

theorem newValue_congr (hb : BuiltModel gm p) (h : StorageInv gm p s) {lam : Nat → Nat → Nat → V} (he : Entries p s lam) {j : Nat} {t : Term V} (ht : p.terms[j]? = some t) (h2 : 2 ≤ t.vars.length) {c : List Nat}
    (hc : InShape (restrict p.numLabels t.vars) c) : t.newValue (D s) j c = t.newValue lam j c := by
  unfold Term.newValue
  congr 2
  apply List.map_congr_left
  intro e he'
  have hce : c[e.2]? = some e.1 := List.mem_zipIdx_iff_getElem?.mp he'
  obtain ⟨hn, he2⟩ := List.getElem?_eq_some_iff.mp hce
  have hlen := InShape_length _ _ hc
  simp only [restrict, List.length_map] at hlen
  have hget : t.vars[e.2]? = some (t.vars[e.2]'(by omega)) := List.getElem?_eq_getElem (by omega)
  have hl : e.1 < p.numLabels.getD (t.vars[e.2]'(by omega)) 0 := by
    exact inShape_at hc hget hce
  have e1 := entries_D hb h _ _ _ _ _ ht h2 hget hl
  rw [he _ _ _ _ _ ht h2 hget hl] at e1
  exact (Option.some.inj e1).symm

/-- C74: the storage of every model can be constructed; its entries are zero. -/
theorem C74_construct (hb : BuiltModel gm p) : ∃ s, construct gm = some s ∧ Entries p s (fun _ _ _ => 0) := by
  obtain ⟨s, e1, e2, e3⟩ := construct_spec hb.represents.toStores
  refine ⟨s, e1, ?_⟩
  intro j n v l t h1 h2 h3 h4
  have := get_spec hb.represents.toStores e2 h1 h2 h3 h4
  rw [this]
  unfold Storage.get at this
  split at this
  · cases this
  · rename_i rows hr
    split at this
    · cases this
    · rename_i row hrow
      exact congrArg some (e3 rows (List.mem_of_getElem? hr) row (List.mem_of_getElem? hrow) _ (List.mem_of_getElem? this))

/-- C74: every reachable storage has an entry for each term of at least two variables, variable and label. -/
theorem C74_entries (hb : BuiltModel gm p) (h : RepaReachable gm s) : ∃ lam, Entries p s lam := ⟨_, entries_D hb (repa_inv hb h).1⟩

/-- C74: a write at an entry that exists changes this entry only. -/
theorem C74_write (hb : BuiltModel gm p) (h : RepaReachable gm s) {lam : Nat → Nat → Nat → V} (he : Entries p s lam) {j n v l : Nat} {t : Term V} (h1 : p.terms[j]? = some t) (h2 : 2 ≤ t.vars.length)
    (h3 : t.vars[n]? = some v) (h4 : l < p.numLabels.getD v 0) (x : V) :
    ∃ s', s.write j n l x = some s' ∧ RepaReachable gm s' ∧ Entries p s' (fun j' n' l' => if j' = j ∧ n' = n ∧ l' = l then x else lam j' n' l') := by
  have hg := he _ _ _ _ _ h1 h2 h3 h4
  cases hr : s.dual[j]? with
  | none => simp [Storage.get, hr] at hg
  | some rows =>
    cases hrow : rows[n]? with
    | none => simp [Storage.get, hr, hrow] at hg
    | some row =>
      have hl : l < row.length := by
        simp only [Storage.get, hr, hrow] at hg
        exact (List.getElem?_eq_some_iff.mp hg).1
      have hj := (List.getElem?_eq_some_iff.mp hr).1
      have hn := (List.getElem?_eq_some_iff.mp hrow).1
      have hw : s.write j n l x = some { s with dual := s.dual.set j (rows.set n (row.set l x)) } := by simp only [Storage.write, hr, hrow]; rw [if_pos hl]
      refine ⟨_, hw, .write h hw, ?_⟩
      intro j' n' v' l' t' g1 g2 g3 g4
      have hg' := he _ _ _ _ _ g1 g2 g3 g4
      by_cases hjj : j = j'
      · subst hjj
        unfold Storage.get at hg' ⊢
        rw [hr] at hg'
        simp only at hg' ⊢
        rw [List.getElem?_set_self hj]
        simp only
        by_cases hnn : n = n'
        · subst hnn
          rw [hrow] at hg'
          simp only at hg'
          rw [List.getElem?_set_self hn]
          simp only
          by_cases hll : l = l'
          · subst hll
            rw [List.getElem?_set_self hl]
            simp
          · rw [List.getElem?_set_ne hll, hg', if_neg (by rintro ⟨_, _, h⟩; exact hll h.symm)]
        · rw [List.getElem?_set_ne hnn, if_neg (by rintro ⟨_, h, _⟩; exact hnn h.symm)]
          exact hg'
      · unfold Storage.get at hg' ⊢
        simp only
        rw [List.getElem?_set_ne hjj, if_neg (by rintro ⟨h, _⟩; exact hjj h.symm)]
        exact hg'

/-- C74: the value of a label of a variable. -/
theorem C74_variable (hb : BuiltModel gm p) (h : RepaReachable gm s) {lam : Nat → Nat → Nat → V} (he : Entries p s lam) {v l : Nat} (hv : v < p.numLabels.length) (hl : l < p.numLabels.getD v 0) :
    s.getVariableValue v l = some (p.newVariableValue lam v l) := by
  have hi := (repa_inv hb h).1
  rw [getVariableValue_spec hb.represents hi hv hl, varVal_eq hb.represents.toStores, newVariableValue_congr hb hi he hl]

/-- C74: the value of a term of at least two variables. -/
theorem C74_factor (hb : BuiltModel gm p) (h : RepaReachable gm s) {lam : Nat → Nat → Nat → V} (he : Entries p s lam) {j : Nat} {t : Term V} (ht : p.terms[j]? = some t) (h2 : 2 ≤ t.vars.length) {c : List Nat}
    (hc : InShape (restrict p.numLabels t.vars) c) : s.getFactorValue j c = some (t.newValue lam j c) := by
  have hi := (repa_inv hb h).1
  rw [getFactorValue_spec hb.represents.toStores hi ht h2 hc, ← newValue_congr hb hi he ht h2 hc, dualSum_eq]
  rfl

/-- C74: the value of a term of one variable is the value of the variable. -/
theorem C74_factor_unary (hb : BuiltModel gm p) (h : RepaReachable gm s) {lam : Nat → Nat → Nat → V} (he : Entries p s lam) {j v l : Nat} {t : Term V} (ht : p.terms[j]? = some t) (hv : t.vars = [v])
    (hl : l < p.numLabels.getD v 0) : s.getFactorValue j [l] = some (p.newVariableValue lam v l) := by
  have hi := (repa_inv hb h).1
  obtain ⟨f, hf, hm⟩ := hi.factor hb.represents.toStores ht
  have hr := hm.range v (by rw [hv]; simp)
  rw [hi.model, hb.represents.labels] at hr
  unfold Storage.getFactorValue
  rw [hf]
  simp only
  rw [hm.visSize, hv]
  simp only [List.length_singleton]
  rw [if_neg (by omega), if_neg (by omega), hm.visAt 0 (by rw [hm.visSize, hv]; simp), hv]
  simp only [List.getElem?_cons_zero]
  exact C74_variable hb h he hr hl

/-- The new terms. -/
def newTerm (p : Problem V) (lam : Nat → Nat → Nat → V) (j : Nat) (t : Term V) (c : List Nat) : V :=
  match t.vars with
  | [v] => p.newVariableValue lam v (c.getD 0 0)
  | _ => t.newValue lam j c

/-- C74, for the models in which each variable that appears in a term has exactly one term of its own, and there is no term without variables: the reparametrized model can be created, its variables are the
same, its terms have the same variables and the new values, and the energy of every labeling is the same. Missing: the other models, see `C74_violated_noUnary`, `C74_violated_twoUnaries`, `C74_violated_constant`. -/
theorem C74_model_partial (hb : BuiltModel gm p) (h : RepaReachable gm s) (hne : ∀ t ∈ p.terms, t.vars ≠ []) {lam : Nat → Nat → Nat → V} (he : Entries p s lam) :
    ∃ gm' p', s.getReparametrizedModel = some gm' ∧ BuiltModel gm' p' ∧ p'.numLabels = p.numLabels ∧ p'.terms.map Term.vars = p.terms.map Term.vars ∧
      (∀ (j : Nat) t t', p.terms[j]? = some t → p'.terms[j]? = some t' → ∀ c, InShape (restrict p.numLabels t.vars) c → t'.table c = newTerm p lam j t c) ∧
      (OneUnary p → ∀ x, p.Labeling x → p'.energy (sumOp V) x = p.energy (sumOp V) x) := by
  have hi := (repa_inv hb h).1
  have hs := hb.represents.toStores
  obtain ⟨gm', p', e1, e2, e3, e4, e5⟩ := getReparametrizedModel_spec hb.represents hi hne
  refine ⟨gm', p', e1, e2, e3, ?_, ?_, fun hu x hx => newModel_energy hs hu e4 e5 hx⟩
  · apply List.ext_getElem (by simpa using e4)
    intro j h1 h2
    simp only [List.length_map] at h1 h2
    obtain ⟨t, g1, g2, _⟩ := (e5 j _ (List.getElem?_eq_getElem h1)).term
    rw [List.getElem?_eq_getElem h2] at g1
    cases g1
    simpa using g2
  · intro j t t' h1 h2 c hc
    obtain ⟨t0, g1, _, g3⟩ := (e5 j _ h2).term
    rw [h1] at g1; cases g1
    rw [g3 c hc]
    unfold newTable newTerm
    by_cases hl : t.vars.length = 1
    · obtain ⟨v, hv⟩ := List.length_eq_one_iff.mp hl
      rw [if_pos hl]
      have hc0 : c.getD 0 0 < p.numLabels.getD v 0 := by
        rw [hv] at hc
        cases c with
        | nil => exact hc.elim
        | cons l c => exact hc.1
      rw [hv]
      simp only [List.getD_cons_zero]
      rw [varVal_eq hs, newVariableValue_congr hb hi he hc0]
    · rw [if_neg hl]
      have h3 : 2 ≤ t.vars.length := by
        have := List.length_pos_of_ne_nil (hne t (List.mem_of_getElem? h1))
        omega
      split
      · rename_i v hv; rw [hv] at hl; simp at hl
      · rw [← newValue_congr hb hi he h1 h3 hc, dualSum_eq]
        rfl

/-- C74: serialize gives all entries; their number is the number of dual variables. -/
theorem C74_serialize_length (hb : BuiltModel gm p) (h : RepaReachable gm s) : s.serialize.length = p.numDuals := by
  have hl := (repa_inv hb h).1.lens
  have e1 : s.serialize.length = ((lens s.dual).map List.sum).sum := by
    unfold Storage.serialize lens
    rw [List.length_flatten, List.map_flatten, List.sum_flatten, List.map_map]
  rw [e1, hl]
  unfold expected Problem.numDuals
  induction p.terms with
  | nil => rfl
  | cons t ts ih =>
    simp only [List.map_cons, List.sum_cons, List.filter_cons]
    rw [ih]
    by_cases h2 : 2 ≤ t.vars.length
    · simp [h2]
    · simp [h2]

/-- C74: what serialize writes, deserialize reads: into any other storage of the same model, whatever it contains. -/
theorem C74_roundtrip (hb : BuiltModel gm p) (h : RepaReachable gm s) {s' : Storage V} (h' : RepaReachable gm s') : s'.deserialize s.serialize = .ok () s := by
  obtain ⟨hi, s0, g1, g2⟩ := repa_inv hb h
  obtain ⟨hi', s1, g3, g4⟩ := repa_inv hb h'
  have hs := hb.represents.toStores
  obtain ⟨d, e1, e2, e3⟩ := deserialize_ok hs hi' s.serialize (by rw [C74_serialize_length hb h, C74_serialize_length hb h'])
  rw [e1]
  have hd : d = s.dual := dual_ext (by rw [e3, hi.lens, hi'.lens]) e2
  rw [g1] at g3; cases g3
  obtain ⟨a, b, c⟩ := s
  obtain ⟨a', b', c'⟩ := s'
  simp only at hd g2 g4
  have := hi.model
  have := hi'.model
  simp only at *
  subst_vars
  rfl

/-- C74: deserialize succeeds if and only if the vector has the right length, and then the vector is what serialize gives; otherwise it throws. -/
theorem C74_deserialize (hb : BuiltModel gm p) (h : RepaReachable gm s) (ser : List V) :
    if ser.length = p.numDuals then ∃ s', s.deserialize ser = .ok () s' ∧ s'.serialize = ser else ∃ s', s.deserialize ser = .throw s' := by
  have hi := (repa_inv hb h).1
  have hs := hb.represents.toStores
  rw [← C74_serialize_length hb h]
  split
  · rename_i hl
    obtain ⟨d, e1, e2, _⟩ := deserialize_ok hs hi ser hl
    exact ⟨_, e1, e2⟩
  · rename_i hl
    obtain ⟨d, e1, _⟩ := deserialize_throw hs hi ser hl
    exact ⟨_, e1⟩

/-! ### Arc consistency -/

/-- Minimizer -/
def minimizer (inf : V) : Acc V := ⟨fun a b => decide (a < b), inf⟩

/-- Maximizer -/
def maximizer (inf : V) : Acc V := ⟨fun a b => decide (b < a), inf⟩

theorem arc_core (hb : BuiltModel gm p) (h : RepaReachable gm s) (hne : ∀ t ∈ p.terms, t.vars ≠ []) (hu : OneUnary p) (hpos : ∀ n ∈ p.numLabels, 0 < n) {lam : Nat → Nat → Nat → V} (he : Entries p s lam)
    (acc : Acc V) (ho : StrictOrder acc.bop) (htot : ∀ a b, acc.bop a b = false → acc.bop b a = false → a = b)
    (hv : ∀ (j : Nat) t, p.terms[j]? = some t → ∀ c, InShape (restrict p.numLabels t.vars) c → acc.bop (newTerm p lam j t c) acc.neutral = true) (epsilon : V) :
    ∃ (p' : Problem V) (infos : List (FactorInfo V)) (mask : List Bool) (labels : List Nat), s.getArcConsistency acc epsilon = some (mask, labels) ∧ mask.length = p.numLabels.length ∧ p.Labeling labels ∧
      (∀ x, p.Labeling x → p'.energy (sumOp V) x = p.energy (sumOp V) x) ∧ p'.numLabels = p.numLabels ∧ p'.terms.length = p.terms.length ∧
      (∀ (j : Nat) t t', p.terms[j]? = some t → p'.terms[j]? = some t' → t'.vars = t.vars ∧ ∀ c, InShape (restrict p.numLabels t.vars) c → t'.table c = newTerm p lam j t c) ∧
      (∀ t' ∈ p'.terms, ∀ x, p.Labeling x → InShape (restrict p.numLabels t'.vars) (restrict x t'.vars)) ∧
      List.Forall₂ (InfoOk acc p') p'.terms infos ∧ (∀ (j v : Nat) t info, p'.terms[j]? = some t → infos[j]? = some info → t.vars = [v] → labels[v]? = info.labels[0]?) ∧ OneUnary p' ∧
      (∀ v, v < p.numLabels.length → (mask[v]? = some true ↔ ∀ (j : Nat) t info, p'.terms[j]? = some t → infos[j]? = some info → v ∈ t.vars → t.vars.length ≠ 1 → Consistent epsilon labels t info v)) ∧
      ((∀ m ∈ mask, m = true) → ∀ t ∈ p'.terms, ∃ value, (t.value labels = value ∨ t.vars.length ≠ 1 ∧ ∃ c, InShape (restrict p.numLabels t.vars) c ∧ |t.value labels - value| < t.vars.length * |t.table c| * epsilon) ∧
        ∀ c, InShape (restrict p.numLabels t.vars) c → acc.bop (t.table c) value = false) := by
  obtain ⟨gm', p', e1, e2, e3, e4, e5, e6⟩ := C74_model_partial hb h hne he
  have hlen : p'.terms.length = p.terms.length := by simpa using congrArg List.length e4
  have hterm : ∀ (j : Nat) t t', p.terms[j]? = some t → p'.terms[j]? = some t' → t'.vars = t.vars ∧ ∀ c, InShape (restrict p.numLabels t.vars) c → t'.table c = newTerm p lam j t c := by
    intro j t t' h1 h2
    refine ⟨?_, e5 j t t' h1 h2⟩
    have := congrArg (fun l => l[j]?) e4
    simpa [h1, h2] using this
  have hex : ∀ t' ∈ p'.terms, ∃ (j : Nat) (t : Term V), p'.terms[j]? = some t' ∧ p.terms[j]? = some t := by
    intro t' ht'
    obtain ⟨j, hj, rfl⟩ := List.getElem_of_mem ht'
    exact ⟨j, p.terms[j], List.getElem?_eq_getElem hj, List.getElem?_eq_getElem (by omega)⟩
  have hu' : OneUnary p' := by
    intro t' ht' v hvt
    obtain ⟨j, t, h1, h2⟩ := hex t' ht'
    have hcount := hu t (List.mem_of_getElem? h2) v (by rw [← (hterm j t t' h2 h1).1]; exact hvt)
    have hmap : ∀ q : Problem V, (q.terms.filter (fun t' => decide (t'.vars = [v]))).length = ((q.terms.map Term.vars).filter (fun vs => decide (vs = [v]))).length := by
      intro q
      rw [List.filter_map, List.length_map]
      rfl
    rw [hmap, e4, ← hmap]
    exact hcount
  have hval : Values acc p' := by
    refine ⟨ho, htot, ?_, by rw [e3]; exact hpos, ?_⟩
    · intro t' ht' c hc
      obtain ⟨j, t, h1, h2⟩ := hex t' ht'
      obtain ⟨h3, h4⟩ := hterm j t t' h2 h1
      rw [e3, h3] at hc
      rw [h4 c hc]
      exact hv j t h2 c hc
    · intro t' ht'
      obtain ⟨j, t, h1, h2⟩ := hex t' ht'
      rw [(hterm j t t' h2 h1).1]
      exact hne t (List.mem_of_getElem? h2)
  obtain ⟨infos, labels, unary, mask, g1, g2, g3, g4, g5, g6, g7, g8⟩ := arc_terms hval e2.represents hu' epsilon
  rw [e3] at g2 g3 g7 g8
  have hlab : ∀ x, p'.Labeling x ↔ p.Labeling x := by intro x; unfold Problem.Labeling; rw [e3]
  have hi := (repa_inv hb h).1
  refine ⟨p', infos, mask, labels, ?_, g3, (hlab _).mp g4, fun x hx => e6 hu x hx, e3, hlen, hterm, ?_, g5, g6, hu', g7, ?_⟩
  · unfold Storage.getArcConsistency
    rw [e1]
    simp only
    rw [g1]
    simp only
    rw [hi.model, GM.numberOfVariables, hb.represents.labels, g2]
    rfl
  · intro t' ht' x hx
    obtain ⟨j, t, h1, h2⟩ := hex t' ht'
    obtain ⟨f, hf, hm⟩ := factorAt hb.represents.toStores h2
    rw [(hterm j t t' h2 h1).1]
    exact inShape_labeling hb.represents.toStores hm hx
  · intro hm t ht
    exact g8 (fun v hv' => by
      rw [List.getElem?_eq_getElem (by omega : v < mask.length)]
      rw [hm _ (List.getElem_mem _)]) t ht

theorem sum_le (x y : List Nat) (g : Term V → V) [IsStrictOrderedRing V] : ∀ ts : List (Term V), (∀ t ∈ ts, t.value x ≤ t.value y + g t) → (ts.map (fun t => t.value x)).sum ≤ (ts.map (fun t => t.value y)).sum + (ts.map g).sum
  | [], _ => by simp
  | t :: ts, h => by
    simp only [List.map_cons, List.sum_cons]
    have h1 := h t (by simp)
    have h2 := sum_le x y g ts (fun t' ht' => h t' (by simp [ht']))
    linarith

end

section
variable {gm : GM V} {p : Problem V} {s : Storage V} [IsStrictOrderedRing V]

omit [CommRing V] [IsStrictOrderedRing V] in
theorem strict_min : StrictOrder (fun a b : V => decide (a < b)) :=
  ⟨fun a => by simp, fun a b c h1 h2 => by simp only [decide_eq_true_eq] at *; exact lt_trans h1 h2⟩

omit [CommRing V] [IsStrictOrderedRing V] in
theorem strict_max : StrictOrder (fun a b : V => decide (b < a)) :=
  ⟨fun a => by simp, fun a b c h1 h2 => by simp only [decide_eq_true_eq] at *; exact lt_trans h2 h1⟩

/-- The total order of the terms of at least two variables. -/
def totalOrder (p : Problem V) : Nat := ((p.terms.map (fun t => t.vars.length)).filter (fun n => decide (2 ≤ n))).sum

omit [LinearOrder V] [IsStrictOrderedRing V] in
theorem tol_sum (k : V) : ∀ ts : List (Term V), (∀ t ∈ ts, t.vars ≠ []) → (ts.map (fun t => if t.vars.length = 1 then 0 else (t.vars.length : V) * k)).sum = (((ts.map (fun t => t.vars.length)).filter (fun n => decide (2 ≤ n))).sum : Nat) * k
  | [], _ => by simp
  | t :: ts, h => by
    simp only [List.map_cons, List.sum_cons]
    rw [tol_sum k ts (fun t' ht' => h t' (by simp [ht']))]
    have := List.length_pos_of_ne_nil (h t (by simp))
    by_cases h1 : t.vars.length = 1
    · rw [if_pos h1, h1]; simp
    · rw [if_neg h1, List.filter_cons, if_pos (by simp; omega), List.sum_cons]
      push_cast
      ring

/-- C74: getArcConsistency for Minimizer. If all values of the reparametrized model are less than infinity and each variable has a label, it succeeds and gives a labeling. If it calls all variables
consistent, this labeling is optimal for the original model, up to a tolerance; for `epsilon = 0` see `C74_arc_exact`. Missing: as in `C74_model_partial`, see `C74_violated_arc`. `W` bounds the values of the reparametrized model. -/
theorem C74_arc_min_partial (hb : BuiltModel gm p) (h : RepaReachable gm s) (hne : ∀ t ∈ p.terms, t.vars ≠ []) (hu : OneUnary p) (hpos : ∀ n ∈ p.numLabels, 0 < n) {lam : Nat → Nat → Nat → V} (he : Entries p s lam)
    {inf epsilon W : V} (hv : ∀ (j : Nat) t, p.terms[j]? = some t → ∀ c, InShape (restrict p.numLabels t.vars) c → newTerm p lam j t c < inf ∧ |newTerm p lam j t c| ≤ W) (hε : 0 ≤ epsilon) :
    ∃ mask labels, s.getArcConsistency (minimizer inf) epsilon = some (mask, labels) ∧ mask.length = p.numLabels.length ∧ p.Labeling labels ∧
      ((∀ m ∈ mask, m = true) → ∀ y, p.Labeling y → p.energy (sumOp V) labels ≤ p.energy (sumOp V) y + totalOrder p * (W * epsilon)) := by
  obtain ⟨p', infos, mask, labels, e1, e2, e3, e4, e5, e6, e7, e8, _, _, _, _, e9⟩ := arc_core hb h hne hu hpos he (minimizer inf) strict_min
    (fun a b h1 h2 => by simp only [minimizer, decide_eq_false_iff_not, not_lt] at h1 h2; exact le_antisymm h2 h1) (fun j t ht c hc => by simp only [minimizer, decide_eq_true_eq]; exact (hv j t ht c hc).1) epsilon
  refine ⟨mask, labels, e1, e2, e3, ?_⟩
  intro hm y hy
  rw [← e4 labels e3, ← e4 y hy, FixFusion.energy_sum, FixFusion.energy_sum]
  have hvars : ∀ t' ∈ p'.terms, ∃ (j : Nat) (t : Term V), p.terms[j]? = some t ∧ t'.vars = t.vars ∧ ∀ c, InShape (restrict p.numLabels t.vars) c → t'.table c = newTerm p lam j t c := by
    intro t' ht'
    obtain ⟨j, hj, rfl⟩ := List.getElem_of_mem ht'
    have h2 : p.terms[j]? = some (p.terms[j]'(by omega)) := List.getElem?_eq_getElem (by omega)
    exact ⟨j, _, h2, e7 j _ _ h2 (List.getElem?_eq_getElem hj)⟩
  have key := sum_le labels y (fun t => if t.vars.length = 1 then 0 else (t.vars.length : V) * (W * epsilon)) p'.terms ?_
  · rw [tol_sum _ _ (fun t' ht' => by
      obtain ⟨j, t, h1, h2, _⟩ := hvars t' ht'
      rw [h2]; exact hne t (List.mem_of_getElem? h1))] at key
    have hto : (p'.terms.map (fun t => t.vars.length)) = (p.terms.map (fun t => t.vars.length)) := by
      apply List.ext_getElem (by simpa using e6)
      intro j h1 h2
      simp only [List.length_map] at h1 h2
      simp only [List.getElem_map]
      rw [(e7 j _ _ (List.getElem?_eq_getElem h2) (List.getElem?_eq_getElem h1)).1]
    rw [hto] at key
    exact key
  · intro t' ht'
    obtain ⟨value, h1, h2⟩ := e9 hm t' ht'
    have h3 := h2 _ (e8 t' ht' y hy)
    simp only [minimizer, decide_eq_false_iff_not, not_lt] at h3
    have h4 : value ≤ t'.value y := h3
    obtain ⟨j, t, g1, g2, g3⟩ := hvars t' ht'
    have hW0 : 0 ≤ W := by
      have := e8 t' ht' y hy
      rw [g2] at this
      exact le_trans (abs_nonneg _) (hv j t g1 _ this).2
    rcases h1 with h1 | ⟨h1, c, hc, h5⟩
    · rw [h1]
      have : 0 ≤ (if t'.vars.length = 1 then 0 else (t'.vars.length : V) * (W * epsilon)) := by split <;> positivity
      linarith
    · rw [if_neg h1]
      rw [g2] at hc
      have h6 : |t'.table c| ≤ W := by rw [g3 c hc]; exact (hv j t g1 c hc).2
      have h7 : (t'.vars.length : V) * |t'.table c| * epsilon ≤ (t'.vars.length : V) * (W * epsilon) := by
        rw [mul_assoc]
        exact mul_le_mul_of_nonneg_left (mul_le_mul_of_nonneg_right h6 hε) (Nat.cast_nonneg _)
      have := le_of_lt (lt_of_lt_of_le (lt_of_le_of_lt (le_abs_self _) h5) h7)
      linarith

/-- C74: getArcConsistency for Maximizer. -/
theorem C74_arc_max_partial (hb : BuiltModel gm p) (h : RepaReachable gm s) (hne : ∀ t ∈ p.terms, t.vars ≠ []) (hu : OneUnary p) (hpos : ∀ n ∈ p.numLabels, 0 < n) {lam : Nat → Nat → Nat → V} (he : Entries p s lam)
    {inf epsilon W : V} (hv : ∀ (j : Nat) t, p.terms[j]? = some t → ∀ c, InShape (restrict p.numLabels t.vars) c → inf < newTerm p lam j t c ∧ |newTerm p lam j t c| ≤ W) (hε : 0 ≤ epsilon) :
    ∃ mask labels, s.getArcConsistency (maximizer inf) epsilon = some (mask, labels) ∧ mask.length = p.numLabels.length ∧ p.Labeling labels ∧
      ((∀ m ∈ mask, m = true) → ∀ y, p.Labeling y → p.energy (sumOp V) y ≤ p.energy (sumOp V) labels + totalOrder p * (W * epsilon)) := by
  obtain ⟨p', infos, mask, labels, e1, e2, e3, e4, e5, e6, e7, e8, _, _, _, _, e9⟩ := arc_core hb h hne hu hpos he (maximizer inf) strict_max
    (fun a b h1 h2 => by simp only [maximizer, decide_eq_false_iff_not, not_lt] at h1 h2; exact le_antisymm h1 h2) (fun j t ht c hc => by simp only [maximizer, decide_eq_true_eq]; exact (hv j t ht c hc).1) epsilon
  refine ⟨mask, labels, e1, e2, e3, ?_⟩
  intro hm y hy
  rw [← e4 labels e3, ← e4 y hy, FixFusion.energy_sum, FixFusion.energy_sum]
  have hvars : ∀ t' ∈ p'.terms, ∃ (j : Nat) (t : Term V), p.terms[j]? = some t ∧ t'.vars = t.vars ∧ ∀ c, InShape (restrict p.numLabels t.vars) c → t'.table c = newTerm p lam j t c := by
    intro t' ht'
    obtain ⟨j, hj, rfl⟩ := List.getElem_of_mem ht'
    have h2 : p.terms[j]? = some (p.terms[j]'(by omega)) := List.getElem?_eq_getElem (by omega)
    exact ⟨j, _, h2, e7 j _ _ h2 (List.getElem?_eq_getElem hj)⟩
  have key := sum_le y labels (fun t => if t.vars.length = 1 then 0 else (t.vars.length : V) * (W * epsilon)) p'.terms ?_
  · rw [tol_sum _ _ (fun t' ht' => by
      obtain ⟨j, t, h1, h2, _⟩ := hvars t' ht'
      rw [h2]; exact hne t (List.mem_of_getElem? h1))] at key
    have hto : (p'.terms.map (fun t => t.vars.length)) = (p.terms.map (fun t => t.vars.length)) := by
      apply List.ext_getElem (by simpa using e6)
      intro j h1 h2
      simp only [List.length_map] at h1 h2
      simp only [List.getElem_map]
      rw [(e7 j _ _ (List.getElem?_eq_getElem h2) (List.getElem?_eq_getElem h1)).1]
    rw [hto] at key
    exact key
  · intro t' ht'
    obtain ⟨value, h1, h2⟩ := e9 hm t' ht'
    have h3 := h2 _ (e8 t' ht' y hy)
    simp only [maximizer, decide_eq_false_iff_not, not_lt] at h3
    have h4 : t'.value y ≤ value := h3
    obtain ⟨j, t, g1, g2, g3⟩ := hvars t' ht'
    have hW0 : 0 ≤ W := by
      have := e8 t' ht' y hy
      rw [g2] at this
      exact le_trans (abs_nonneg _) (hv j t g1 _ this).2
    rcases h1 with h1 | ⟨h1, c, hc, h5⟩
    · rw [h1]
      have : 0 ≤ (if t'.vars.length = 1 then 0 else (t'.vars.length : V) * (W * epsilon)) := by split <;> positivity
      linarith
    · rw [if_neg h1]
      rw [g2] at hc
      have h6 : |t'.table c| ≤ W := by rw [g3 c hc]; exact (hv j t g1 c hc).2
      have h7 : (t'.vars.length : V) * |t'.table c| * epsilon ≤ (t'.vars.length : V) * (W * epsilon) := by
        rw [mul_assoc]
        exact mul_le_mul_of_nonneg_left (mul_le_mul_of_nonneg_right h6 hε) (Nat.cast_nonneg _)
      have := le_of_lt (lt_of_lt_of_le (lt_of_le_of_lt (neg_abs_le _ |> neg_le.mp) h5) h7)
      linarith

/-- C74: the other direction: if a labeling is in each term of the reparametrized model the only optimum, all variables are consistent, and the labels of the variables that appear in terms are those
of this labeling. -/
theorem C74_arc_complete_partial (hb : BuiltModel gm p) (h : RepaReachable gm s) (hne : ∀ t ∈ p.terms, t.vars ≠ []) (hu : OneUnary p) (hpos : ∀ n ∈ p.numLabels, 0 < n) {lam : Nat → Nat → Nat → V} (he : Entries p s lam)
    {inf epsilon : V} (hv : ∀ (j : Nat) t, p.terms[j]? = some t → ∀ c, InShape (restrict p.numLabels t.vars) c → newTerm p lam j t c < inf) {y : List Nat} (hy : p.Labeling y)
    (hbest : ∀ (j : Nat) t, p.terms[j]? = some t → ∀ c, InShape (restrict p.numLabels t.vars) c → c ≠ restrict y t.vars → newTerm p lam j t (restrict y t.vars) < newTerm p lam j t c) :
    ∃ mask labels, s.getArcConsistency (minimizer inf) epsilon = some (mask, labels) ∧ (∀ m ∈ mask, m = true) ∧ ∀ t ∈ p.terms, restrict labels t.vars = restrict y t.vars := by
  obtain ⟨p', infos, mask, labels, e1, e2, e3, e4, e5, e6, e7, e8, e9, e10, e11, e12, _⟩ := arc_core hb h hne hu hpos he (minimizer inf) strict_min
    (fun a b h1 h2 => by simp only [minimizer, decide_eq_false_iff_not, not_lt] at h1 h2; exact le_antisymm h2 h1) (fun j t ht c hc => by simp only [minimizer, decide_eq_true_eq]; exact hv j t ht c hc) epsilon
  have hinfo : ∀ (j : Nat) t' info, p'.terms[j]? = some t' → infos[j]? = some info → info.labels = restrict y t'.vars := by
    intro j t' info h1 h2
    obtain ⟨info', g1, g2⟩ := infoAt e9 h1
    rw [h2] at g1; cases g1
    have hj := (List.getElem?_eq_some_iff.mp h1).1
    have h3 : p.terms[j]? = some (p.terms[j]'(by omega)) := List.getElem?_eq_getElem (by omega)
    obtain ⟨h4, h5⟩ := e7 j _ _ h3 h1
    by_contra hcon
    have hsh := g2.shape
    rw [e5, h4] at hsh
    rw [h4] at hcon
    have h6 := hbest j _ h3 _ hsh hcon
    have hy' := e8 t' (List.mem_of_getElem? h1) y hy
    have h7 := g2.best _ (by rw [e5]; exact hy')
    simp only [minimizer, decide_eq_false_iff_not] at h7
    rw [← g2.value] at h7
    rw [h4] at hy' h7
    rw [h5 _ hsh, h5 _ hy'] at h7
    exact h7 h6
  have hlab : ∀ (j : Nat) t', p'.terms[j]? = some t' → ∀ v ∈ t'.vars, labels[v]? = y[v]? := by
    intro j t' h1 v hv'
    have hj := (List.getElem?_eq_some_iff.mp h1).1
    have hdef : termAt p' j = t' := by
      have := termAt_get hj
      rw [h1] at this
      exact (Option.some.inj this).symm
    obtain ⟨u, h2, h3, _⟩ := oneUnary_iff e11 (i := j) (v := v) hj (by rw [hdef]; exact hv')
    obtain ⟨info, g1, g2⟩ := infoAt e9 (termAt_get h2)
    rw [e10 u v _ info (termAt_get h2) g1 h3, hinfo u _ info (termAt_get h2) g1, h3]
    have hjp : u < p.terms.length := by omega
    obtain ⟨f, hf, hm⟩ := factorAt hb.represents.toStores (List.getElem?_eq_getElem hjp)
    have hr := hm.range v (by rw [← (e7 u _ _ (List.getElem?_eq_getElem hjp) (termAt_get h2)).1, h3]; simp)
    rw [hb.represents.labels, ← hy.1] at hr
    simp [restrict, List.getD_eq_getElem?_getD, hr]
  refine ⟨mask, labels, e1, ?_, ?_⟩
  · intro m hm
    obtain ⟨v, hv', rfl⟩ := List.getElem_of_mem hm
    have := (e12 v (by omega)).mpr (by
      intro j t info h1 h2 h3 _
      left
      rw [hinfo j t info h1 h2, hlab j t h1 v h3]
      have hidx := List.idxOf_lt_length_of_mem h3
      have hj := (List.getElem?_eq_some_iff.mp h1).1
      have hjp : j < p.terms.length := by omega
      obtain ⟨f, hf, hm⟩ := factorAt hb.represents.toStores (List.getElem?_eq_getElem hjp)
      have hr := hm.range v (by rw [← (e7 j _ _ (List.getElem?_eq_getElem hjp) h1).1]; exact h3)
      rw [hb.represents.labels, ← hy.1] at hr
      simp [restrict, List.getD_eq_getElem?_getD, hr, hidx])
    rw [List.getElem?_eq_getElem hv'] at this
    exact Option.some.inj this
  · intro t ht
    obtain ⟨j, hj, rfl⟩ := List.getElem_of_mem ht
    have hj' : j < p'.terms.length := by omega
    have h4 := (e7 j _ _ (List.getElem?_eq_getElem hj) (List.getElem?_eq_getElem hj')).1
    apply List.map_congr_left
    intro v hv'
    rw [List.getD_eq_getElem?_getD, List.getD_eq_getElem?_getD, hlab j _ (List.getElem?_eq_getElem hj') v (by rw [h4]; exact hv')]

/-- C74: with `epsilon = 0`, if getArcConsistency calls all variables consistent, the labeling is optimal for the original model: for Minimizer and for Maximizer. -/
theorem C74_arc_exact_partial (hb : BuiltModel gm p) (h : RepaReachable gm s) (hne : ∀ t ∈ p.terms, t.vars ≠ []) (hu : OneUnary p) (hpos : ∀ n ∈ p.numLabels, 0 < n) {lam : Nat → Nat → Nat → V} (he : Entries p s lam)
    {inf : V} {mask : List Bool} {labels : List Nat} (hm : ∀ m ∈ mask, m = true) :
    ((∀ (j : Nat) t, p.terms[j]? = some t → ∀ c, InShape (restrict p.numLabels t.vars) c → newTerm p lam j t c < inf) → s.getArcConsistency (minimizer inf) 0 = some (mask, labels) →
      p.Labeling labels ∧ ∀ y, p.Labeling y → p.energy (sumOp V) labels ≤ p.energy (sumOp V) y) ∧
    ((∀ (j : Nat) t, p.terms[j]? = some t → ∀ c, InShape (restrict p.numLabels t.vars) c → inf < newTerm p lam j t c) → s.getArcConsistency (maximizer inf) 0 = some (mask, labels) →
      p.Labeling labels ∧ ∀ y, p.Labeling y → p.energy (sumOp V) y ≤ p.energy (sumOp V) labels) := by
  have hval : ∀ (t : Term V) (value : V) (P : List Nat → Prop), (t.value labels = value ∨ t.vars.length ≠ 1 ∧ ∃ c, P c ∧ |t.value labels - value| < t.vars.length * |t.table c| * 0) → t.value labels = value := by
    intro t value P h
    rcases h with h | ⟨_, c, _, h⟩
    · exact h
    · rw [mul_zero] at h
      exact absurd (abs_nonneg _) (not_le.mpr h)
  constructor
  · intro hv hres
    obtain ⟨p', infos, mask', labels', e1, e2, e3, e4, e5, e6, e7, e8, _, _, _, _, e9⟩ := arc_core hb h hne hu hpos he (minimizer inf) strict_min
      (fun a b h1 h2 => by simp only [minimizer, decide_eq_false_iff_not, not_lt] at h1 h2; exact le_antisymm h2 h1) (fun j t ht c hc => by simp only [minimizer, decide_eq_true_eq]; exact hv j t ht c hc) 0
    rw [hres] at e1; cases e1
    refine ⟨e3, fun y hy => ?_⟩
    rw [← e4 labels e3, ← e4 y hy, FixFusion.energy_sum, FixFusion.energy_sum]
    have key := sum_le labels y (fun _ => 0) p'.terms ?_
    · simpa using key
    · intro t' ht'
      obtain ⟨value, h1, h2⟩ := e9 hm t' ht'
      have h3 := h2 _ (e8 t' ht' y hy)
      simp only [minimizer, decide_eq_false_iff_not, not_lt] at h3
      rw [hval t' value _ h1, add_zero]
      exact h3
  · intro hv hres
    obtain ⟨p', infos, mask', labels', e1, e2, e3, e4, e5, e6, e7, e8, _, _, _, _, e9⟩ := arc_core hb h hne hu hpos he (maximizer inf) strict_max
      (fun a b h1 h2 => by simp only [maximizer, decide_eq_false_iff_not, not_lt] at h1 h2; exact le_antisymm h1 h2) (fun j t ht c hc => by simp only [maximizer, decide_eq_true_eq]; exact hv j t ht c hc) 0
    rw [hres] at e1; cases e1
    refine ⟨e3, fun y hy => ?_⟩
    rw [← e4 labels e3, ← e4 y hy, FixFusion.energy_sum, FixFusion.energy_sum]
    have key := sum_le y labels (fun _ => 0) p'.terms ?_
    · simpa using key
    · intro t' ht'
      obtain ⟨value, h1, h2⟩ := e9 hm t' ht'
      have h3 := h2 _ (e8 t' ht' y hy)
      simp only [maximizer, decide_eq_false_iff_not, not_lt] at h3
      rw [hval t' value _ h1, add_zero]
      exact h3

/-! ### Examples and violations -/

/-- Two variables with two and three labels, with their own terms, and a term of both. -/
def repaOps : List (BuildOp Int) :=
  [.addVariable 2, .addVariable 3, .addFunction 0 ⟨[2], fun c => if c = [1] then 1 else 0⟩, .addFunction 0 ⟨[3], fun c => if c = [2] then 0 else 5⟩,
   .addFunction 0 ⟨[2, 3], fun c => if c = [0, 2] then 9 else 4⟩, .addFactor 0 [0], .addFactor 1 [1], .addFactor 2 [0, 1]]

theorem repaOps_valid : ValidHistory 1 Built.empty repaOps := by
  simp [repaOps, ValidHistory, BuildOp.Valid, BuildOp.apply, Built.empty, restrict]

/-- The energies of the labelings of a model. -/
def energies (gm : GM Int) (xs : List (List Nat)) : List (Option Int) := xs.map (fun x => gm.evaluate (sumOp Int) x)

/-- The hypotheses of the theorems of C74 are met by this model: each variable has a term of its own; after deserialize, the storage is not zero, the reparametrized model has other terms and the same energies,
and all variables are consistent, which they were not before. (Their values are less than 1000, and each optimum is the only one.) -/
example : ∃ (gm : GM Int) (p : Problem Int) (s s2 : Storage Int), BuiltModel gm p ∧ OneUnary p ∧ (∀ t ∈ p.terms, t.vars ≠ []) ∧ construct gm = some s ∧ RepaReachable gm s2 ∧
    s.getArcConsistency (minimizer 1000) 0 = some ([true, false], [0, 2]) ∧
    s2.serialize = [-2, 0, 0, 0, -3] ∧ s2.getArcConsistency (minimizer 1000) 0 = some ([true, true], [1, 2]) ∧
    s2.getReparametrizedModel.map (fun gm' => energies gm' [[0, 0], [0, 1], [0, 2], [1, 0], [1, 1], [1, 2]]) = some (energies gm [[0, 0], [0, 1], [0, 2], [1, 0], [1, 1], [1, 2]]) := by
  obtain ⟨c, h1⟩ : ∃ c, (Client.init 1).run (fun _ _ => false) repaOps = .ok () c := ⟨_, rfl⟩
  obtain ⟨s, hs⟩ : ∃ s, construct c.gm = some s := by cases h1; exact ⟨_, rfl⟩
  obtain ⟨s2, hs2⟩ : ∃ s2, s.deserialize [-2, 0, 0, 0, -3] = .ok () s2 := by cases h1; cases hs; exact ⟨_, rfl⟩
  refine ⟨c.gm, (builtAfter repaOps).problem, s, s2, ⟨1, _, repaOps, c, eqvSound_false, repaOps_valid, h1, rfl, rfl⟩, ?_, ?_, hs, .read (.construct hs) hs2, ?_⟩
  · intro t ht v hv
    simp [builtAfter, repaOps, BuildOp.apply, Built.empty, Built.problem] at ht
    rcases ht with rfl | rfl | rfl <;> simp at hv
    · subst hv; rfl
    · subst hv; rfl
    · rcases hv with rfl | rfl <;> rfl
  · intro t ht
    simp [builtAfter, repaOps, BuildOp.apply, Built.empty, Built.problem] at ht
    rcases ht with rfl | rfl | rfl <;> simp
  · cases h1
    cases hs
    cases hs2
    decide +kernel

/-- A term of two variables without terms of their own. -/
def noUnaryOps : List (BuildOp Int) := [.addVariable 2, .addVariable 2, .addFunction 0 ⟨[2, 2], fun c => if c = [0, 1] then 1 else 0⟩, .addFactor 0 [0, 1]]

/-- C74 (violated): variables without terms of their own. The dual variables are added to the term of both, and subtracted nowhere: the reparametrized model has other energies, and another optimum. -/
theorem C74_violated_noUnary : ∃ (gm : GM Int) (p : Problem Int) (s : Storage Int), BuiltModel gm p ∧ RepaReachable gm s ∧ s.serialize = [3, 0, 0, 0] ∧
    s.getReparametrizedModel.map (fun gm' => energies gm' [[0, 0], [0, 1], [1, 0], [1, 1]]) = some [some 3, some 4, some 0, some 0] ∧
    energies gm [[0, 0], [0, 1], [1, 0], [1, 1]] = [some 0, some 1, some 0, some 0] := by
  obtain ⟨c, h1⟩ : ∃ c, (Client.init 1).run (fun _ _ => false) noUnaryOps = .ok () c := ⟨_, rfl⟩
  obtain ⟨s, hs⟩ : ∃ s, construct c.gm = some s := by cases h1; exact ⟨_, rfl⟩
  obtain ⟨s2, hs2⟩ : ∃ s2, s.write 0 0 0 3 = some s2 := by cases h1; cases hs; exact ⟨_, rfl⟩
  refine ⟨c.gm, (builtAfter noUnaryOps).problem, s2, ⟨1, _, noUnaryOps, c, eqvSound_false, ?_, h1, rfl, rfl⟩, .write (.construct hs) hs2, ?_⟩
  · simp [noUnaryOps, ValidHistory, BuildOp.Valid, BuildOp.apply, Built.empty, restrict]
  · cases h1
    cases hs
    cases hs2
    decide +kernel

/-- A term of two variables without terms of their own, that is best at the labels 1 and 1. -/
def arcOps : List (BuildOp Int) := [.addVariable 2, .addVariable 2, .addFunction 0 ⟨[2, 2], fun c => if c = [1, 1] then 0 else 7⟩, .addFactor 0 [0, 1]]

/-- C74 (violated): getArcConsistency for variables without terms of their own: all variables are called consistent, with labels that were never looked at, and a labeling that is not optimal. -/
theorem C74_violated_arc : ∃ (gm : GM Int) (p : Problem Int) (s : Storage Int), BuiltModel gm p ∧ construct gm = some s ∧
    s.getArcConsistency (minimizer 1000) 0 = some ([true, true], [0, 0]) ∧ energies gm [[0, 0], [1, 1]] = [some 7, some 0] := by
  obtain ⟨c, h1⟩ : ∃ c, (Client.init 1).run (fun _ _ => false) arcOps = .ok () c := ⟨_, rfl⟩
  obtain ⟨s, hs⟩ : ∃ s, construct c.gm = some s := by cases h1; exact ⟨_, rfl⟩
  refine ⟨c.gm, (builtAfter arcOps).problem, s, ⟨1, _, arcOps, c, eqvSound_false, ?_, h1, rfl, rfl⟩, hs, ?_⟩
  · simp [arcOps, ValidHistory, BuildOp.Valid, BuildOp.apply, Built.empty, restrict]
  · cases h1
    cases hs
    decide +kernel

/-- A variable with two terms of its own. -/
def twoUnariesOps : List (BuildOp Int) := [.addVariable 2, .addFunction 0 ⟨[2], fun c => if c = [0] then 1 else 0⟩, .addFactor 0 [0], .addFactor 0 [0]]

/-- C74 (violated): a variable with two terms of its own: each of them gets the sum of both, so that the energies change without any write. -/
theorem C74_violated_twoUnaries : ∃ (gm : GM Int) (p : Problem Int) (s : Storage Int), BuiltModel gm p ∧ construct gm = some s ∧
    s.getReparametrizedModel.map (fun gm' => energies gm' [[0], [1]]) = some [some 4, some 0] ∧ energies gm [[0], [1]] = [some 2, some 0] := by
  obtain ⟨c, h1⟩ : ∃ c, (Client.init 1).run (fun _ _ => false) twoUnariesOps = .ok () c := ⟨_, rfl⟩
  obtain ⟨s, hs⟩ : ∃ s, construct c.gm = some s := by cases h1; exact ⟨_, rfl⟩
  refine ⟨c.gm, (builtAfter twoUnariesOps).problem, s, ⟨1, _, twoUnariesOps, c, eqvSound_false, ?_, h1, rfl, rfl⟩, hs, ?_⟩
  · simp [twoUnariesOps, ValidHistory, BuildOp.Valid, BuildOp.apply, Built.empty, restrict]
  · cases h1
    cases hs
    decide +kernel

/-- A term without variables. -/
def constantOps : List (BuildOp Int) := [.addVariable 2, .addFunction 0 ⟨[], fun _ => 7⟩, .addFactor 0 []]

/-- C74 (violated): the value of a term without variables: the code then reads variable 0 of the term. -/
theorem C74_violated_constant : ∃ (gm : GM Int) (p : Problem Int) (s : Storage Int), BuiltModel gm p ∧ construct gm = some s ∧ s.getFactorValue 0 [] = none ∧ s.getReparametrizedModel.isNone = true ∧
    energies gm [[0]] = [some 7] := by
  obtain ⟨c, h1⟩ : ∃ c, (Client.init 1).run (fun _ _ => false) constantOps = .ok () c := ⟨_, rfl⟩
  obtain ⟨s, hs⟩ : ∃ s, construct c.gm = some s := by cases h1; exact ⟨_, rfl⟩
  refine ⟨c.gm, (builtAfter constantOps).problem, s, ⟨1, _, constantOps, c, eqvSound_false, ?_, h1, rfl, rfl⟩, hs, ?_⟩
  · simp [constantOps, ValidHistory, BuildOp.Valid, BuildOp.apply, Built.empty, restrict]
  · cases h1
    cases hs
    decide +kernel

end
end OpenGM
