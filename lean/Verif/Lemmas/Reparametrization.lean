import Verif.Model.Reparametrization
import Verif.Lemmas.FixMove
import Verif.Lemmas.DPInfer
import Verif.Lemmas.FusionEnergy
import Verif.Lemmas.ManipulatorBuild
/-
Values of the storage of a reparametrization.
-/
namespace OpenGM.Repa
open Spec
variable {V : Type} [CommRing V] [LinearOrder V]

/-- The rows of one factor. -/
def RowsOk (numLabels : List Nat) (t : Term V) (rows : List (List V)) : Prop :=
  if 2 ≤ t.vars.length then rows.map List.length = restrict numLabels t.vars else rows = []

/-- The map of one factor. -/
def IdsOk (t : Term V) (m : List (Nat × Nat)) : Prop :=
  2 ≤ t.vars.length → ∀ n v : Nat, t.vars[n]? = some v → (m.find? (fun e => e.1 == v)).map (fun e => e.2) = some n

/-- The storage fits to the model. -/
structure StorageInv (gm : GM V) (p : Problem V) (s : Storage V) : Prop where
  model : s.gm = gm
  dual : List.Forall₂ (RowsOk p.numLabels) p.terms s.dual
  ids : List.Forall₂ IdsOk p.terms s.localIds

theorem mapSet_find (key value k : Nat) : ∀ m : List (Nat × Nat), ((mapSet key value m).find? (fun e => e.1 == k)).map (fun e => e.2) = if k = key then some value else (m.find? (fun e => e.1 == k)).map (fun e => e.2)
  | [] => by
    by_cases h : k = key
    · subst h; simp [mapSet]
    · have : (key == k) = false := by simpa using fun h' => h h'.symm
      simp [mapSet, h, this]
  | e :: es => by
    have ih := mapSet_find key value k es
    unfold mapSet
    split
    · rename_i he
      by_cases h : k = key
      · subst h; simp
      · have h1 : (key == k) = false := by simpa using fun h' => h h'.symm
        have h2 : (e.1 == k) = false := by rw [he]; exact h1
        simp [List.find?_cons, h, h1, h2]
    · rename_i he
      by_cases h2 : e.1 = k
      · subst h2
        simp [List.find?_cons, he]
      · have h3 : (e.1 == k) = false := by simpa using h2
        simp only [List.find?_cons, h3]
        exact ih

theorem factorRows_spec {gm : GM V} {p : Problem V} (hs : Stores gm p) {f : FactorRec} {t : Term V} (hm : FactorMatches gm f t) : ∀ (k n : Nat) (m : List (Nat × Nat)), n + k = t.vars.length →
    ∃ rows m', factorRows gm f n k m = some (rows, m') ∧ rows.map List.length = restrict p.numLabels (t.vars.drop n) ∧ (∀ row ∈ rows, ∀ x ∈ row, x = 0) ∧
      ∀ v, (m'.find? (fun e => e.1 == v)).map (fun e => e.2) = match (t.vars.drop n).idxOf? v with | some i => some (n + i) | none => (m.find? (fun e => e.1 == v)).map (fun e => e.2)
  | 0, n, m, h => by
    have : t.vars.drop n = [] := List.drop_eq_nil_of_le (by omega)
    exact ⟨[], m, rfl, by simp [this, restrict], by simp, by simp [this]⟩
  | k + 1, n, m, h => by
    have hn : n < t.vars.length := by omega
    have hv := hm.visAt n (by rw [hm.visSize]; exact hn)
    have hr := hm.range (t.vars[n]) (List.getElem_mem hn)
    have hnl : gm.numLabels[t.vars[n]]? = some (gm.numLabels[t.vars[n]]) := List.getElem?_eq_getElem hr
    obtain ⟨rows, m', e1, e2, e3, e4⟩ := factorRows_spec hs hm k (n + 1) (mapSet t.vars[n] n m) (by omega)
    refine ⟨List.replicate (gm.numLabels[t.vars[n]]) 0 :: rows, m', ?_, ?_, ?_, ?_⟩
    · unfold factorRows
      rw [hv]
      simp only [List.getElem?_eq_getElem hn]
      rw [hnl]
      simp only
      rw [e1]
    · rw [List.drop_eq_getElem_cons hn]
      simp only [List.map_cons, List.length_replicate, e2, restrict]
      congr 1
      rw [← hs.labels, List.getD_eq_getElem?_getD, hnl]
      rfl
    · intro row hrow x hx
      rcases List.mem_cons.mp hrow with rfl | hrow
      · exact List.eq_of_mem_replicate hx
      · exact e3 row hrow x hx
    · intro v
      rw [e4, List.drop_eq_getElem_cons hn, List.idxOf?_cons]
      have hnd : t.vars.Nodup := hm.sorted.imp (fun h => Nat.ne_of_lt h)
      by_cases hx : t.vars[n] = v
      · subst hx
        have hnone : (t.vars.drop (n + 1)).idxOf? t.vars[n] = none := by
          rw [List.idxOf?_eq_none_iff]
          intro hmem
          have hnd2 := hnd.sublist (List.drop_sublist n t.vars)
          rw [List.drop_eq_getElem_cons hn, List.nodup_cons] at hnd2
          exact hnd2.1 hmem
        rw [hnone]
        simp only [beq_self_eq_true, if_true, Nat.add_zero]
        rw [mapSet_find]
        simp
      · have hx' : (t.vars[n] == v) = false := by simpa using hx
        simp only [hx']
        cases hi : (t.vars.drop (n + 1)).idxOf? v with
        | none =>
          simp only
          rw [mapSet_find]
          simp [Ne.symm hx]
        | some i =>
          simp
          omega

theorem constructLoop_spec {gm : GM V} {p : Problem V} (hs : Stores gm p) : ∀ (fs : List FactorRec) (ts : List (Term V)), List.Forall₂ (FactorMatches gm) fs ts →
    ∃ dual ids, constructLoop gm fs = some (dual, ids) ∧ List.Forall₂ (RowsOk p.numLabels) ts dual ∧ List.Forall₂ IdsOk ts ids ∧ ∀ rows ∈ dual, ∀ row ∈ rows, ∀ x ∈ row, x = 0
  | [], _, h => by
    cases h
    exact ⟨[], [], rfl, .nil, .nil, by simp⟩
  | f :: fs, _, h => by
    cases h with
    | @cons _ t _ ts hm h =>
    obtain ⟨dual, ids, e1, e2, e3, e4⟩ := constructLoop_spec hs fs ts h
    unfold constructLoop
    rw [e1, hm.visSize]
    by_cases h2 : 2 ≤ t.vars.length
    · obtain ⟨rows, m, g1, g2, g3, g4⟩ := factorRows_spec hs hm t.vars.length 0 [] (by omega)
      rw [if_pos h2, g1]
      refine ⟨rows :: dual, m :: ids, rfl, .cons ?_ e2, .cons ?_ e3, ?_⟩
      · simpa [RowsOk, h2] using g2
      · intro _ n v hv
        rw [g4 v]
        have hnd : t.vars.Nodup := hm.sorted.imp (fun h => Nat.ne_of_lt h)
        obtain ⟨hlt, he⟩ := List.getElem?_eq_some_iff.mp hv
        have : (t.vars.drop 0).idxOf? v = some n := by
          rw [List.drop_zero, List.idxOf?_eq_some_iff]
          refine ⟨hlt, by simp [he], ?_⟩
          intro j hj hjv
          have h1 : t.vars[j] = t.vars[n] := by rw [he]; simpa using hjv
          exact absurd ((List.Nodup.getElem_inj_iff hnd).mp h1) (by omega)
        rw [this]
        simp
      · intro r hr
        rcases List.mem_cons.mp hr with rfl | hr
        · exact g3
        · exact e4 r hr
    · rw [if_neg h2]
      refine ⟨[] :: dual, [] :: ids, rfl, .cons ?_ e2, .cons ?_ e3, ?_⟩
      · simp [RowsOk, h2]
      · intro h; exact absurd h h2
      · intro r hr
        rcases List.mem_cons.mp hr with rfl | hr
        · simp
        · exact e4 r hr

theorem construct_spec {gm : GM V} {p : Problem V} (hs : Stores gm p) : ∃ s, construct gm = some s ∧ StorageInv gm p s ∧ ∀ rows ∈ s.dual, ∀ row ∈ rows, ∀ x ∈ row, x = 0 := by
  obtain ⟨dual, ids, e1, e2, e3, e4⟩ := constructLoop_spec hs gm.factors p.terms hs.factors
  refine ⟨⟨gm, dual, ids⟩, ?_, ⟨rfl, e2, e3⟩, e4⟩
  unfold construct
  rw [e1]

/-! ### Values -/

/-- The entry of the storage. -/
def D (s : Storage V) (j n l : Nat) : V := ((s.dual.getD j []).getD n []).getD l 0

section
variable {gm : GM V} {p : Problem V} {s : Storage V}

theorem StorageInv.factor (hs : Stores gm p) (h : StorageInv gm p s) {j : Nat} {t : Term V} (ht : p.terms[j]? = some t) : ∃ f, s.gm.factors[j]? = some f ∧ FactorMatches s.gm f t := by
  rw [h.model]
  obtain ⟨hj, e⟩ := List.getElem?_eq_some_iff.mp ht
  have hl := hs.factors.length_eq
  refine ⟨gm.factors[j], List.getElem?_eq_getElem (by omega), ?_⟩
  have := hs.factors.get (i := j) (by omega) hj
  simp only [List.get_eq_getElem] at this
  rw [← e]; exact this

theorem get_spec (hs : Stores gm p) (h : StorageInv gm p s) {j n l v : Nat} {t : Term V} (ht : p.terms[j]? = some t) (h2 : 2 ≤ t.vars.length) (hv : t.vars[n]? = some v) (hl : l < p.numLabels.getD v 0) :
    s.get j n l = some (D s j n l) := by
  obtain ⟨hj, e⟩ := List.getElem?_eq_some_iff.mp ht
  have hlen := h.dual.length_eq
  have hr := h.dual.get (i := j) hj (by omega)
  simp only [List.get_eq_getElem] at hr
  rw [e, RowsOk, if_pos h2] at hr
  obtain ⟨hn, e2⟩ := List.getElem?_eq_some_iff.mp hv
  have hn2 : n < (s.dual[j]).length := by
    have := congrArg List.length hr
    simp [restrict] at this
    omega
  have hrow : (s.dual[j])[n].length = p.numLabels.getD v 0 := by
    have := congrArg (fun l => l[n]?) hr
    simp [restrict, hn2, hn] at this
    rw [this, e2]
    simp
  have hl2 : l < (s.dual[j])[n].length := by omega
  unfold Storage.get D
  simp [List.getD_eq_getElem?_getD, hlen ▸ hj, hn2, hl2]

theorem localId_spec (h : StorageInv gm p s) {j n v : Nat} {t : Term V} (ht : p.terms[j]? = some t) (h2 : 2 ≤ t.vars.length) (hv : t.vars[n]? = some v) : s.localId j v = some n := by
  obtain ⟨hj, e⟩ := List.getElem?_eq_some_iff.mp ht
  have hlen := h.ids.length_eq
  have hr := h.ids.get (i := j) hj (by omega)
  simp only [List.get_eq_getElem] at hr
  rw [e] at hr
  unfold Storage.localId
  rw [List.getElem?_eq_getElem (by omega)]
  exact hr h2 n v hv

/-- What a factor adds to the value of a variable. -/
def contrib (s : Storage V) (p : Problem V) (j v l : Nat) : V :=
  match p.terms[j]? with
  | some t => if t.vars.length = 1 then t.table [l] else - D s j (t.vars.idxOf v) l
  | none => 0

theorem variableLoop_spec (hs : Stores gm p) (h : StorageInv gm p s) {v l : Nat} (hl : l < p.numLabels.getD v 0) : ∀ (ids : List Nat) (res : V), (∀ j ∈ ids, mentions p.terms v j = true) →
    variableLoop s v l ids res = some (res + (ids.map (fun j => contrib s p j v l)).sum)
  | [], res, _ => by simp [variableLoop]
  | j :: ids, res, hm => by
    obtain ⟨t, ht, hvt⟩ := Fusion.mentions_iff.mp (hm j (by simp))
    obtain ⟨f, hf, hfm⟩ := h.factor hs ht
    have hlen : 0 < t.vars.length := List.length_pos_of_mem hvt
    unfold variableLoop
    rw [hf]
    simp only
    rw [hfm.visSize]
    by_cases h1 : t.vars.length = 1
    · have hvs : t.vars = [v] := by
        obtain ⟨a, ha⟩ := List.length_eq_one_iff.mp h1
        rw [ha] at hvt ⊢
        simp at hvt
        rw [hvt]
      have hst : Stores s.gm p := by rw [h.model]; exact hs
      rw [if_pos h1, DP.callFactor_at hst hfm (c := [l]) (by rw [hvs]; simpa [restrict, InShape] using hl) (by rw [hvs]; simp)]
      simp only
      rw [variableLoop_spec hs h hl ids _ (fun j hj => hm j (by simp [hj]))]
      simp [contrib, ht, h1, add_assoc]
    · have hidx := List.idxOf_lt_length_of_mem hvt
      have hget : t.vars[t.vars.idxOf v]? = some v := by
        rw [List.getElem?_eq_getElem hidx, List.getElem_idxOf hidx]
      rw [if_neg h1, localId_spec h ht (by omega) hget]
      simp only
      rw [get_spec hs h ht (by omega) hget hl]
      simp only
      rw [variableLoop_spec hs h hl ids _ (fun j hj => hm j (by simp [hj]))]
      simp only [List.map_cons, List.sum_cons, contrib, ht, if_neg h1]
      congr 1
      ring

/-- The new value of a variable. -/
def varVal (s : Storage V) (p : Problem V) (v l : Nat) : V := (((List.range p.terms.length).filter (mentions p.terms v)).map (fun j => contrib s p j v l)).sum

theorem getVariableValue_spec (hr : Represents gm p) (h : StorageInv gm p s) {v l : Nat} (hv : v < p.numLabels.length) (hl : l < p.numLabels.getD v 0) :
    s.getVariableValue v l = some (varVal s p v l) := by
  unfold Storage.getVariableValue GM.factorsOfVariable
  rw [h.model, hr.adj v (by rw [hr.labels]; exact hv)]
  simp only
  rw [variableLoop_spec hr.toStores h hl _ _ (fun j hj => (List.mem_filter.mp hj).2), zero_add]
  rfl

/-- What the storage adds to the value of a factor, from position `n`. -/
def dualSum (s : Storage V) (j : Nat) : Nat → List Nat → V
  | _, [] => 0
  | n, l :: ls => D s j n l + dualSum s j (n + 1) ls

theorem factorLoop_spec (hs : Stores gm p) (h : StorageInv gm p s) {j : Nat} {t : Term V} (ht : p.terms[j]? = some t) (h2 : 2 ≤ t.vars.length) : ∀ (k n : Nat) (c rest : List Nat) (res : V),
    n + k = t.vars.length → InShape (restrict p.numLabels (t.vars.drop n)) c → factorLoop s j n k (c ++ rest) res = some (res + dualSum s j n c)
  | 0, n, c, rest, res, hk, hc => by
    have : t.vars.drop n = [] := List.drop_eq_nil_of_le (by omega)
    rw [this] at hc
    cases c with
    | nil => simp [factorLoop, dualSum]
    | cons a b => simp [restrict, InShape] at hc
  | k + 1, n, c, rest, res, hk, hc => by
    have hn : n < t.vars.length := by omega
    rw [List.drop_eq_getElem_cons hn] at hc
    cases c with
    | nil => exact hc.elim
    | cons l c =>
      simp only [restrict, List.map_cons, InShape] at hc
      simp only [factorLoop, List.cons_append]
      rw [get_spec hs h ht h2 (List.getElem?_eq_getElem hn) hc.1]
      simp only
      rw [factorLoop_spec hs h ht h2 k (n + 1) c rest _ (by omega) hc.2]
      simp [dualSum, add_assoc]

theorem getFactorValue_spec (hs : Stores gm p) (h : StorageInv gm p s) {j : Nat} {t : Term V} (ht : p.terms[j]? = some t) (h2 : 2 ≤ t.vars.length) {c : List Nat} (hc : InShape (restrict p.numLabels t.vars) c) :
    s.getFactorValue j c = some (t.table c + dualSum s j 0 c) := by
  obtain ⟨f, hf, hfm⟩ := h.factor hs ht
  have hst : Stores s.gm p := by rw [h.model]; exact hs
  unfold Storage.getFactorValue
  rw [hf]
  simp only
  rw [hfm.visSize, if_pos (by omega), DP.callFactor_at hst hfm hc (by intro h0; rw [h0] at h2; simp at h2)]
  simp only
  have := factorLoop_spec hs h ht h2 t.vars.length 0 c [] (t.table c) (by omega) hc
  rwa [List.append_nil] at this

/-- The new table of a term. -/
def newTable (s : Storage V) (p : Problem V) (j : Nat) (t : Term V) (c : List Nat) : V :=
  if t.vars.length = 1 then varVal s p (t.vars.getD 0 0) (c.getD 0 0) else t.table c + dualSum s j 0 c

theorem view_spec (hr : Represents gm p) (h : StorageInv gm p s) {j : Nat} {t : Term V} (ht : p.terms[j]? = some t) (hne : t.vars ≠ []) {f : FactorRec} (hfm : FactorMatches s.gm f t) {c : List Nat}
    (hc : InShape (restrict p.numLabels t.vars) c) : view s f j c = some (newTable s p j t c) := by
  unfold view newTable
  rw [hfm.visSize]
  by_cases h1 : t.vars.length = 1
  · rw [if_pos h1, if_pos h1]
    obtain ⟨v, hv⟩ := List.length_eq_one_iff.mp h1
    have := hfm.visAt 0 (by rw [hfm.visSize]; omega)
    rw [this]
    rw [hv] at hc ⊢
    cases c with
    | nil => simp [restrict, InShape] at hc
    | cons l c =>
      simp only [restrict, List.map_cons, InShape] at hc
      simp only [List.getElem?_cons_zero]
      have hvr := hfm.range v (by rw [hv]; simp)
      rw [h.model, hr.labels] at hvr
      exact getVariableValue_spec hr h hvr hc.1
  · rw [if_neg h1, if_neg h1]
    have : 0 < t.vars.length := List.length_pos_of_ne_nil hne
    exact getFactorValue_spec hr.toStores h ht (by omega) hc

end
end OpenGM.Repa
