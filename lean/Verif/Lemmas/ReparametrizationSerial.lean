import Verif.Lemmas.ReparametrizationModel
/-
serialize and deserialize.
-/
namespace OpenGM.Repa
open Spec
variable {V : Type}

/-- The lengths of all vectors. -/
def lens (dual : List (List (List V))) : List (List Nat) := dual.map (fun rows => rows.map List.length)

/-- The lengths for a problem. -/
def expected (p : Problem V) : List (List Nat) := p.terms.map (fun t => if 2 ≤ t.vars.length then restrict p.numLabels t.vars else [])

theorem rowsOk_iff {nl : List Nat} {t : Term V} {rows : List (List V)} : RowsOk nl t rows ↔ rows.map List.length = if 2 ≤ t.vars.length then restrict nl t.vars else [] := by
  unfold RowsOk
  split <;> simp

theorem forall_rowsOk {nl : List Nat} : ∀ (ts : List (Term V)) (dual : List (List (List V))),
    List.Forall₂ (RowsOk nl) ts dual ↔ lens dual = ts.map (fun t => if 2 ≤ t.vars.length then restrict nl t.vars else [])
  | [], dual => by cases dual <;> simp [lens]
  | t :: ts, [] => by simp [lens]
  | t :: ts, rows :: dual => by
    rw [List.forall₂_cons, forall_rowsOk ts dual, rowsOk_iff]
    simp [lens]

theorem dual_ext {d d' : List (List (List V))} (h1 : lens d = lens d') (h2 : d.flatten.flatten = d'.flatten.flatten) : d = d' := by
  have hl : d.map List.length = d'.map List.length := by
    have := congrArg (fun l => l.map List.length) h1
    simpa [lens, Function.comp_def] using this
  have hf : d.flatten.map List.length = d'.flatten.map List.length := by
    have := congrArg List.flatten h1
    simpa [lens, List.map_flatten] using this
  have e1 : d.flatten = d'.flatten := List.eq_iff_flatten_eq.mpr ⟨h2, hf⟩
  exact List.eq_iff_flatten_eq.mpr ⟨e1, hl⟩

theorem readRow_ok : ∀ (row ser : List V), row.length ≤ ser.length → readRow row ser = .ok () (ser.take row.length, ser.drop row.length)
  | [], ser, _ => by simp [readRow]
  | _ :: _, [], h => by simp at h
  | x :: row, y :: ser, h => by
    simp only [List.length_cons, Nat.add_le_add_iff_right] at h
    simp [readRow, readRow_ok row ser h]

theorem readRow_throw : ∀ (row ser : List V), ser.length < row.length → ∃ row', readRow row ser = .throw (row', []) ∧ row'.length = row.length
  | [], ser, h => by simp at h
  | x :: row, [], _ => ⟨_, rfl, rfl⟩
  | x :: row, y :: ser, h => by
    simp only [List.length_cons, Nat.add_lt_add_iff_right] at h
    obtain ⟨row', e1, e2⟩ := readRow_throw row ser h
    exact ⟨y :: row', by simp [readRow, e1], by simp [e2]⟩

theorem readRows_ok : ∀ (rows : List (List V)) (ser : List V), rows.flatten.length ≤ ser.length → ∃ rows', readRows rows.length rows ser = .ok () (rows', ser.drop rows.flatten.length) ∧
    rows'.flatten = ser.take rows.flatten.length ∧ rows'.map List.length = rows.map List.length
  | [], ser, _ => ⟨[], by simp [readRows]⟩
  | row :: rows, ser, h => by
    rw [List.flatten_cons, List.length_append] at h
    obtain ⟨rows', e1, e2, e3⟩ := readRows_ok rows (ser.drop row.length) (by rw [List.length_drop]; omega)
    refine ⟨ser.take row.length :: rows', ?_, ?_, ?_⟩
    · simp only [List.length_cons, readRows, readRow_ok row ser (by omega), e1]
      rw [List.drop_drop, List.flatten_cons, List.length_append]
    · rw [List.flatten_cons, e2, List.flatten_cons, List.length_append, List.take_add]
    · simp only [List.map_cons, e3, List.length_take]
      congr 1
      omega

theorem readRows_throw : ∀ (rows : List (List V)) (ser : List V), ser.length < rows.flatten.length → ∃ rows', readRows rows.length rows ser = .throw (rows', []) ∧ rows'.map List.length = rows.map List.length
  | [], ser, h => by simp at h
  | row :: rows, ser, h => by
    rw [List.flatten_cons, List.length_append] at h
    by_cases h1 : row.length ≤ ser.length
    · obtain ⟨rows', e1, e2⟩ := readRows_throw rows (ser.drop row.length) (by rw [List.length_drop]; omega)
      refine ⟨ser.take row.length :: rows', ?_, ?_⟩
      · simp only [List.length_cons, readRows, readRow_ok row ser h1, e1]
      · simp only [List.map_cons, e2, List.length_take]
        congr 1
        omega
    · obtain ⟨row', e1, e2⟩ := readRow_throw row ser (by omega)
      refine ⟨row' :: rows, ?_, by simp [e2]⟩
      simp only [List.length_cons, readRows, e1]

/-- The factors fit to the vectors. -/
def Fits (f : FactorRec) (rows : List (List V)) : Prop := if f.visSize = 1 then rows = [] else rows.length = f.visSize

theorem readFactors_ok : ∀ (fs : List FactorRec) (dual : List (List (List V))) (ser : List V), List.Forall₂ Fits fs dual → dual.flatten.flatten.length ≤ ser.length →
    ∃ dual', readFactors fs dual ser = .ok () (dual', ser.drop dual.flatten.flatten.length) ∧ dual'.flatten.flatten = ser.take dual.flatten.flatten.length ∧ lens dual' = lens dual
  | [], _, ser, h, _ => by
    cases h
    exact ⟨[], by simp [readFactors]⟩
  | f :: fs, _, ser, h, hl => by
    cases h with
    | @cons _ rows _ dual hf h =>
    rw [List.flatten_cons, List.flatten_append, List.length_append] at hl
    obtain ⟨rows', g1, g2, g3⟩ : ∃ rows', (if f.visSize = 1 then Outcome.ok () (rows, ser) else readRows f.visSize rows ser) = .ok () (rows', ser.drop rows.flatten.length) ∧
        rows'.flatten = ser.take rows.flatten.length ∧ rows'.map List.length = rows.map List.length := by
      unfold Fits at hf
      split at hf
      · rename_i h1
        subst hf
        exact ⟨[], by simp [h1]⟩
      · rename_i hv
        obtain ⟨rows', e1, e2, e3⟩ := readRows_ok rows ser (by omega)
        refine ⟨rows', ?_, e2, e3⟩
        rw [if_neg hv, ← hf]; exact e1
    obtain ⟨dual', e1, e2, e3⟩ := readFactors_ok fs dual (ser.drop rows.flatten.length) h (by rw [List.length_drop]; omega)
    refine ⟨rows' :: dual', ?_, ?_, ?_⟩
    · unfold readFactors
      rw [g1]
      simp only [e1]
      rw [List.drop_drop, List.flatten_cons, List.flatten_append, List.length_append]
    · rw [List.flatten_cons, List.flatten_append, g2, e2, List.flatten_cons, List.flatten_append, List.length_append, List.take_add]
    · simp only [lens, List.map_cons, g3]
      congr 1

theorem readFactors_throw : ∀ (fs : List FactorRec) (dual : List (List (List V))) (ser : List V), List.Forall₂ Fits fs dual → ser.length < dual.flatten.flatten.length →
    ∃ dual', readFactors fs dual ser = .throw (dual', []) ∧ lens dual' = lens dual
  | [], _, ser, h, hl => by
    cases h
    simp at hl
  | f :: fs, _, ser, h, hl => by
    cases h with
    | @cons _ rows _ dual hf h =>
    rw [List.flatten_cons, List.flatten_append, List.length_append] at hl
    by_cases h1 : rows.flatten.length ≤ ser.length
    · obtain ⟨rows', g1, g3⟩ : ∃ rows', (if f.visSize = 1 then Outcome.ok () (rows, ser) else readRows f.visSize rows ser) = .ok () (rows', ser.drop rows.flatten.length) ∧
          rows'.map List.length = rows.map List.length := by
        unfold Fits at hf
        split at hf
        · rename_i h2
          subst hf
          exact ⟨[], by simp [h2]⟩
        · rename_i hv
          obtain ⟨rows', e1, e2, e3⟩ := readRows_ok rows ser h1
          refine ⟨rows', ?_, e3⟩
          rw [if_neg hv, ← hf]; exact e1
      obtain ⟨dual', e1, e3⟩ := readFactors_throw fs dual (ser.drop rows.flatten.length) h (by rw [List.length_drop]; omega)
      refine ⟨rows' :: dual', ?_, ?_⟩
      · unfold readFactors
        rw [g1]
        simp only [e1]
      · simp only [lens, List.map_cons, g3]
        congr 1
    · obtain ⟨rows', g1, g3⟩ := readRows_throw rows ser (by omega)
      have hv : ¬ f.visSize = 1 := by
        intro h2
        unfold Fits at hf
        rw [if_pos h2] at hf
        subst hf
        simp at h1
      unfold Fits at hf
      rw [if_neg hv] at hf
      refine ⟨rows' :: dual, ?_, ?_⟩
      · unfold readFactors
        rw [if_neg hv, ← hf, g1]
      · simp [lens, g3]

section
variable [CommRing V] [LinearOrder V] {gm : GM V} {p : Problem V} {s : Storage V}

theorem StorageInv.lens (h : StorageInv gm p s) : Repa.lens s.dual = expected p := (forall_rowsOk _ _).mp h.dual

theorem StorageInv.fits (hs : Stores gm p) (h : StorageInv gm p s) : List.Forall₂ Fits s.gm.factors s.dual := by
  rw [h.model]
  have h1 := hs.factors
  have h2 := h.dual
  rw [List.forall₂_iff_get] at h1 h2 ⊢
  refine ⟨by omega, fun i hi hi' => ?_⟩
  have e1 := h1.2 i hi (by omega)
  have e2 := h2.2 i (by omega) hi'
  simp only [List.get_eq_getElem] at e1 e2 ⊢
  rw [rowsOk_iff] at e2
  unfold Fits
  rw [e1.visSize]
  split
  · rename_i h3
    rw [if_neg (by omega)] at e2
    simpa using e2
  · rename_i h3
    have := congrArg List.length e2
    split at this
    · simpa [restrict] using this
    · simp only [List.length_map, List.length_nil] at this
      omega

theorem StorageInv.replace (h : StorageInv gm p s) {d : List (List (List V))} (hd : Repa.lens d = Repa.lens s.dual) : StorageInv gm p { s with dual := d } :=
  ⟨h.model, (forall_rowsOk _ _).mpr (by rw [hd]; exact h.lens), h.ids⟩

theorem deserialize_ok (hs : Stores gm p) (h : StorageInv gm p s) (ser : List V) (hl : ser.length = s.serialize.length) :
    ∃ d, s.deserialize ser = .ok () { s with dual := d } ∧ d.flatten.flatten = ser ∧ Repa.lens d = Repa.lens s.dual := by
  unfold Storage.serialize at hl
  obtain ⟨d, e1, e2, e3⟩ := readFactors_ok s.gm.factors s.dual ser (h.fits hs) (by omega)
  refine ⟨d, ?_, ?_, e3⟩
  · unfold Storage.deserialize
    rw [e1, ← hl, List.drop_length]
  · rw [e2, ← hl, List.take_length]

theorem deserialize_throw (hs : Stores gm p) (h : StorageInv gm p s) (ser : List V) (hl : ser.length ≠ s.serialize.length) :
    ∃ d, s.deserialize ser = .throw { s with dual := d } ∧ Repa.lens d = Repa.lens s.dual := by
  unfold Storage.serialize at hl
  by_cases h1 : ser.length < s.dual.flatten.flatten.length
  · obtain ⟨d, e1, e3⟩ := readFactors_throw s.gm.factors s.dual ser (h.fits hs) h1
    refine ⟨d, ?_, e3⟩
    unfold Storage.deserialize
    rw [e1]
  · obtain ⟨d, e1, e2, e3⟩ := readFactors_ok s.gm.factors s.dual ser (h.fits hs) (by omega)
    refine ⟨d, ?_, e3⟩
    unfold Storage.deserialize
    rw [e1]
    cases hd : ser.drop s.dual.flatten.flatten.length with
    | nil =>
      rw [List.drop_eq_nil_iff] at hd
      omega
    | cons a b => rfl

theorem write_inv (h : StorageInv gm p s) {f n l : Nat} {x : V} {s' : Storage V} (e : s.write f n l x = some s') : StorageInv gm p s' ∧ s'.localIds = s.localIds := by
  unfold Storage.write at e
  split at e
  · cases e
  · rename_i rows hrows
    split at e
    · cases e
    · rename_i row hrow
      split at e
      · cases e
        refine ⟨h.replace ?_, rfl⟩
        obtain ⟨h1, h2⟩ := List.getElem?_eq_some_iff.mp hrows
        obtain ⟨h3, h4⟩ := List.getElem?_eq_some_iff.mp hrow
        unfold Repa.lens
        rw [List.map_set, List.map_set, List.length_set]
        have e1 : (rows.map List.length).set n row.length = rows.map List.length := by
          rw [← h4]
          have : (rows[n]).length = (rows.map List.length)[n]'(by simpa using h3) := by simp
          rw [this, List.set_getElem_self]
        rw [e1, ← h2]
        have : (s.dual[f]).map List.length = (s.dual.map (fun rows => rows.map List.length))[f]'(by simpa using h1) := by simp
        rw [this, List.set_getElem_self]
      · cases e

end
end OpenGM.Repa
