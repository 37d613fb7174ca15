import Verif.Lemmas.FunctionStorage
/-
C61: SparseFunction is a table with a default value.
-/
namespace OpenGM.Functions
open Spec Walkers Marray Geometry

variable {V : Type}

/-- A history of `insert` calls. -/
def Sparse.insertAll (f : Sparse V) (history : List (List Nat × V)) : Option (Sparse V) := history.foldlM (fun f e => f.insert e.1 e.2) f

/-- The value of the first entry for a tuple. -/
def firstWrite (d : V) (history : List (List Nat × V)) (c : List Nat) : V :=
  match history.find? (fun e => decide (e.1 = c)) with
  | some e => e.2
  | none => d

/-- What a history leaves behind. -/
structure Sparse.Holds (f : Sparse V) (shape : List Nat) (d : V) (history : List (List Nat × V)) : Prop where
  shape_eq : f.shape = shape
  strides_eq : f.strides = Sparse.stridesFrom 1 shape
  default_eq : f.defaultValue = d
  sorted : KeysSorted f.container
  find : ∀ c, InShape shape c → mapFind (idx shape c) f.container = (history.find? (fun e => decide (e.1 = c))).map (·.2)

theorem Sparse.Holds.insert {f : Sparse V} {shape : List Nat} {d : V} {history : List (List Nat × V)} (h : f.Holds shape d history)
    {c : List Nat} (hc : InShape shape c) (x : V) : ∃ f', f.insert c x = some f' ∧ f'.Holds shape d (history ++ [(c, x)]) := by
  have hk : f.coordinateToKey c = some (idx shape c) := by
    have := key_eq (f := f) (by rw [h.strides_eq, h.shape_eq]) (c := c) (by rw [h.shape_eq]; exact inShape_length hc)
    rwa [h.shape_eq] at this
  unfold Sparse.insert
  rw [hk]
  refine ⟨_, rfl, h.shape_eq, h.strides_eq, h.default_eq, sorted_mapInsert h.sorted, ?_⟩
  intro c' hc'
  simp only
  rw [mapFind_mapInsert h.sorted, h.find c' hc', List.find?_append]
  cases history.find? (fun e => decide (e.1 = c')) with
  | some e => simp
  | none =>
    by_cases he : c = c'
    · subst he; simp
    · have : idx shape c' ≠ idx shape c := fun h2 => he (idx_inj hc hc' h2.symm)
      simp [he, this]

theorem Sparse.insertAll_holds {shape : List Nat} {d : V} : ∀ (more history : List (List Nat × V)) (f : Sparse V), f.Holds shape d history →
    (∀ e ∈ more, InShape shape e.1) → ∃ f', f.insertAll more = some f' ∧ f'.Holds shape d (history ++ more)
  | [], history, f, h, _ => ⟨f, rfl, by simpa using h⟩
  | e :: more, history, f, h, hm => by
    obtain ⟨f1, h1, h2⟩ := h.insert (hm e (by simp)) e.2
    obtain ⟨f2, h3, h4⟩ := insertAll_holds more (history ++ [e]) f1 h2 (fun e he => hm e (List.mem_cons_of_mem _ he))
    refine ⟨f2, ?_, by simpa using h4⟩
    unfold insertAll at h3 ⊢
    rw [List.foldlM_cons, h1]
    exact h3

theorem Sparse.make_holds (shape : List Nat) (d : V) : (Sparse.make shape d).Holds shape d [] :=
  ⟨rfl, rfl, rfl, by simp [Sparse.make, KeysSorted], by simp [Sparse.make, mapFind]⟩

/-- C61, for histories that insert each tuple at most once or rely on the first value: every insertion works, and the function denotes
the table with the inserted values and the default value elsewhere; the translation between tuples and keys is one to one. -/
theorem C61_sparse_partial (shape : List Nat) (d : V) (history : List (List Nat × V)) (hh : ∀ e ∈ history, InShape shape e.1) :
    ∃ f, (Sparse.make shape d).insertAll history = some f ∧ Denotes f.toFun shape (firstWrite d history) ∧ f.defaultValue = d ∧
      (∀ c, InShape shape c → ∃ k, f.coordinateToKey c = some k ∧ f.keyToCoordinate k = some c) ∧
      (∀ c c' k, InShape shape c → InShape shape c' → f.coordinateToKey c = some k → f.coordinateToKey c' = some k → c = c') := by
  obtain ⟨f, h1, h⟩ := Sparse.insertAll_holds history [] _ (Sparse.make_holds shape d) hh
  have hst : f.strides = Sparse.stridesFrom 1 f.shape := by rw [h.strides_eq, h.shape_eq]
  have hk : ∀ c, InShape shape c → f.coordinateToKey c = some (idx shape c) := by
    intro c hc
    have := Sparse.key_eq hst (c := c) (by rw [h.shape_eq]; exact inShape_length hc)
    rwa [h.shape_eq] at this
  refine ⟨f, h1, ⟨h.shape_eq, ?_, ?_⟩, h.default_eq, ?_, ?_⟩
  · show f.shape.foldl (· * ·) 1 = shape.prod
    rw [h.shape_eq, foldl_mul_prod]
  · intro c hc
    show (f.coordinateToKey c).map f.valueFromKey = _
    rw [hk c hc, Option.map_some]
    unfold Sparse.valueFromKey firstWrite
    have := h.find c hc
    simp only [List.nil_append] at this
    rw [this]
    cases history.find? (fun e => decide (e.1 = c)) with
    | none => simp [h.default_eq]
    | some e => simp
  · intro c hc
    refine ⟨_, hk c hc, ?_⟩
    have := Sparse.keyToCoordinate_eq hst (c := c) (by rw [h.shape_eq]; exact hc)
    rwa [h.shape_eq] at this
  · intro c c' k hc hc' e1 e2
    rw [hk c hc] at e1
    rw [hk c' hc'] at e2
    exact Sparse.idx_inj hc hc' ((Option.some.inj e1).trans (Option.some.inj e2).symm)

/-- With distinct tuples, every inserted value is found. -/
theorem C61_sparse_distinct_partial (d : V) (history : List (List Nat × V)) (hnd : (history.map (·.1)).Nodup) :
    (∀ e ∈ history, firstWrite d history e.1 = e.2) ∧ ∀ c, c ∉ history.map (·.1) → firstWrite d history c = d := by
  constructor
  · intro e he
    unfold firstWrite
    cases hf : history.find? (fun e' => decide (e'.1 = e.1)) with
    | none =>
      have := List.find?_eq_none.mp hf e he
      simp at this
    | some e' =>
      have h1 : e'.1 = e.1 := by simpa using List.find?_some hf
      have h2 := List.mem_of_find?_eq_some hf
      have : e' = e := List.inj_on_of_nodup_map hnd h2 he h1
      simp [this]
  · intro c hc
    unfold firstWrite
    have : history.find? (fun e => decide (e.1 = c)) = none := by
      rw [List.find?_eq_none]
      intro e he
      simp only [decide_eq_true_eq]
      rintro rfl
      exact hc (List.mem_map_of_mem he)
    rw [this]

example : (∀ e ∈ [([1, 2], (5 : Int)), ([2, 0], 7)], InShape [3, 4] e.1) ∧ ([([1, 2], (5 : Int)), ([2, 0], 7)].map (·.1)).Nodup ∧
    ((Sparse.make [3, 4] (0 : Int)).insertAll [([1, 2], 5), ([2, 0], 7)]).map (fun f => (f.eval [1, 2], f.eval [2, 0], f.eval [0, 0])) =
      some (some 5, some 7, some 0) := by
  refine ⟨by simp [InShape], by decide, by decide⟩

/-- C61 is violated by a second insertion at the same tuple: the value stays the first one. -/
theorem C61_violated_overwrite : ((Sparse.make [3] (0 : Int)).insertAll [([1], 5), ([1], 7)]).bind (fun f => f.eval [1]) = some 5 := by decide

/-- C61: a second insertion at a tuple never has an effect. -/
theorem C61_violated_overwrite_always (shape : List Nat) (d : V) (history : List (List Nat × V)) (hh : ∀ e ∈ history, InShape shape e.1)
    (c : List Nat) (hc : InShape shape c) (x y : V) (hx : (c, x) ∈ history) :
    ∃ f, (Sparse.make shape d).insertAll (history ++ [(c, y)]) = some f ∧ Denotes f.toFun shape (firstWrite d history) := by
  obtain ⟨f, h1, h2, _⟩ := C61_sparse_partial shape d (history ++ [(c, y)]) (by
    intro e he
    rcases List.mem_append.mp he with he | he
    · exact hh e he
    · rw [List.mem_singleton.mp he]; exact hc)
  refine ⟨f, h1, h2.shape_eq, h2.size_eq, ?_⟩
  intro c' hc'
  rw [h2.eval_eq c' hc']
  unfold firstWrite
  rw [List.find?_append]
  cases hf : history.find? (fun e => decide (e.1 = c')) with
  | some e => simp
  | none =>
    have hne : c ≠ c' := by
      rintro rfl
      have := List.find?_eq_none.mp hf _ hx
      simp at this
    simp [hne]

end OpenGM.Functions
