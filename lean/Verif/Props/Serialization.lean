import Verif.Props.SparseFunction
import Verif.Props.PottsG
import Verif.Props.FunctionValues
/-
C38: serialization of functions, and copies as explicit functions.
-/
namespace OpenGM.Functions
open Spec Walkers Marray Geometry FactorOps Partitions

variable {V : Type}

/-- A way to write and read functions round-trips on `f`: the announced sizes are right, and reading gives `f` back, with anything
behind it in the streams. -/
def RoundTrips {F : Type} (sizes : F → Nat × Nat) (serialize : F → Option (List Nat × List V))
    (deserialize : List Nat → List V → Option F) (f : F) : Prop :=
  ∃ ix vs, serialize f = some (ix, vs) ∧ sizes f = (ix.length, vs.length) ∧ ∀ rest rest', deserialize (ix ++ rest) (vs ++ rest') = some f

/-- C38 for Potts functions. -/
theorem C38_potts (f : Potts V) : RoundTrips Potts.sizes (fun f => some f.serialize) Potts.deserialize f :=
  ⟨_, _, rfl, rfl, fun _ _ => rfl⟩

/-- C38 for PottsN functions. -/
theorem C38_pottsN (shape : List Nat) (e n : V) :
    RoundTrips PottsN.sizes (fun f => some f.serialize) PottsN.deserialize (PottsN.mk' shape e n) := by
  refine ⟨_, _, rfl, rfl, ?_⟩
  intro rest rest'
  simp only [PottsN.mk', List.cons_append, PottsN.deserialize]
  rw [readShape_append shape rest]
  rfl

/-- C38 for constant functions. -/
theorem C38_constant (shape : List Nat) (v : V) :
    RoundTrips Constant.sizes (fun f => some f.serialize) Constant.deserialize (Constant.mk' shape v) := by
  refine ⟨_, _, rfl, rfl, ?_⟩
  intro rest rest'
  simp only [Constant.mk', List.cons_append, Constant.deserialize, List.getElem?_cons_zero]
  rw [readShape_append shape rest]
  rfl

/-- C38 for absolute difference functions: the scale is read from the value at labels 0 and 1. -/
theorem C38_absoluteDifference [CommRing V] [LinearOrder V] [IsStrictOrderedRing V] (f : Difference V) :
    RoundTrips Difference.sizes Difference.serializeAbs Difference.deserialize f := by
  refine ⟨[f.n1, f.n2], [f.scale], ?_, rfl, fun _ _ => rfl⟩
  simp [Difference.serializeAbs, Difference.evalAbs]

/-- C38 for squared difference functions. -/
theorem C38_squaredDifference (f : Difference V) :
    RoundTrips Difference.sizes (fun f => some f.serializeSq) Difference.deserialize f := ⟨_, _, rfl, rfl, fun _ _ => rfl⟩

/-- C38 for truncated difference functions (absolute and squared). -/
theorem C38_truncatedDifference (f : Truncated V) :
    RoundTrips Truncated.sizes (fun f => some f.serialize) Truncated.deserialize f := ⟨_, _, rfl, rfl, fun _ _ => rfl⟩

example : (PottsN.mk' [2, 3, 4] (0 : Int) 5).serialize = ([3, 2, 3, 4], [0, 5]) ∧
    PottsN.deserialize ([3, 2, 3, 4] ++ [1, 1]) ([0, 5] ++ [(9 : Int)]) = some (PottsN.mk' [2, 3, 4] 0 5) := by decide

/-! ### explicit functions -/

/-- Explicit functions made by the constructors of ExplicitFunction, and changed by writing entries by labels or by scalar index. -/
inductive Explicit.Built : List Nat → Arr V → Prop
  | scalar (v : V) : Built [] (Arr.scalar v defaultOrder)
  | table (shape : List Nat) (v : V) : Built shape (Arr.make shape v defaultOrder)
  | set {shape a a' c x} : Built shape a → InShape shape c → a.set c x = some a' → Built shape a'
  | setIndex {shape a a' i x} : Built shape a → FactorOps.setIndex a i x = some a' → Built shape a'

theorem Explicit.Built.ok {shape : List Nat} {a : Arr V} (h : Explicit.Built shape a) : a.Ok shape defaultOrder := by
  induction h with
  | scalar v => exact scalar_ok v _
  | table shape v => exact (Arr.make_spec shape v defaultOrder).1
  | @set shape a a' c x _ hc hs ih =>
    obtain ⟨a'', h1, h2, _⟩ := ih.set_spec hc x
    rw [hs] at h1
    injection h1 with h1
    rw [h1]; exact h2
  | @setIndex shape a a' i x _ hs ih =>
    obtain ⟨hg, mem, hm, hl⟩ := ih
    unfold FactorOps.setIndex at hs
    rw [hm, hg, indexToOffset, if_pos (Arr.dense_simple _ _)] at hs
    simp only at hs
    by_cases hi : i < mem.length
    · rw [setAt_of_lt _ hi, Option.map_some] at hs
      injection hs with hs
      rw [← hs]
      exact ⟨rfl, _, rfl, by simp [hl]⟩
    · simp [setAt, hi] at hs

/-- C38 for explicit functions made with a shape or a value. -/
theorem C38_explicit_partial (zero : V) {shape : List Nat} {a : Arr V} (h : Explicit.Built shape a) :
    RoundTrips Explicit.sizes Explicit.serialize (Explicit.deserialize zero) a := by
  obtain ⟨hg, mem, hm, hl⟩ := h.ok
  have ha : a = ⟨some mem, dense shape defaultOrder defaultOrder⟩ := by
    rcases a with ⟨d, g⟩
    simp only at hg hm
    rw [hg, hm]
  have hsh : a.geometry.shape = shape := by rw [hg, dense_shape]
  have hsz : a.geometry.size = shape.prod := by rw [hg, Arr.dense_size]
  unfold RoundTrips Explicit.sizes
  by_cases h0 : shape = []
  · subst h0
    simp only [List.prod_nil] at hl hsz
    obtain ⟨x, rfl⟩ := List.length_eq_one_iff.mp hl
    refine ⟨[0], [x], ?_, ?_, ?_⟩
    · unfold Explicit.serialize
      rw [hsh, if_pos (show ([] : List Nat).length = 0 from rfl), Arr.Ok.getIndex_eq hg hm]
      rfl
    · rw [hsh, hsz]; rfl
    · intro rest rest'
      rw [ha]
      rfl
  · refine ⟨shape.length :: shape, mem, ?_, ?_, ?_⟩
    · unfold Explicit.serialize
      rw [hsh, if_neg (by simpa using h0), hsz, Explicit.readFrom_eq hg hm _ _ (by omega)]
      simp [hl]
    · rw [hsh, hsz, hl]; rfl
    · intro rest rest'
      obtain ⟨n, hn⟩ : ∃ n, shape.length = n + 1 := by
        cases shape with
        | nil => exact absurd rfl h0
        | cons a l => exact ⟨l.length, rfl⟩
      rw [List.cons_append, hn]
      unfold Explicit.deserialize
      simp only
      rw [readShape_append' shape rest hn.symm]
      simp only
      obtain ⟨b, hb, ⟨hbg, bm, hbm, hbl⟩, _⟩ := Arr.resize_empty zero (newShape := shape) h0 zero
      rw [hb, Option.bind_some]
      have hbeq : b = ⟨some bm, dense shape defaultOrder defaultOrder⟩ := by
        rcases b with ⟨d, g⟩
        simp only at hbg hbm
        rw [hbg, hbm]
      have hbs : b.geometry.size = mem.length := by rw [hbg, Arr.dense_size, hl]
      rw [hbs, hbeq, ha]
      have := Explicit.writeFrom_eq shape defaultOrder mem bm [] rest' (by omega)
      simpa using this

/-- C38 is violated by a default-constructed explicit function: `src(0)` is read although there is no entry. -/
theorem C38_violated_default : Explicit.serialize (Arr.empty : Arr V) = none := rfl

example : Explicit.Built [2, 3] (Arr.make [2, 3] (1 : Int) defaultOrder) ∧
    (Explicit.serialize (Arr.make [2, 1] (1 : Int) defaultOrder)) = some ([2, 2, 1], [1, 1]) := ⟨.table _ _, rfl⟩

/-- C38: the copy of a function as an explicit function has its shape and its values. -/
theorem C38_cloneAsExplicit (zero : V) {f : Fun V} {shape : List Nat} {g : List Nat → V} (hp : Positive shape) (hf : Denotes f shape g) :
    ∃ a, cloneAsExplicit zero f = some a ∧ a.Ok shape defaultOrder ∧ ∀ c, InShape shape c → a.get c = some (g c) := by
  obtain ⟨b, hb, hok⟩ : ∃ b, (Arr.empty : Arr V).resize zero shape zero = some b ∧ b.Ok shape defaultOrder := by
    by_cases h0 : shape = []
    · subst h0
      exact ⟨_, rfl, scalar_ok _ _⟩
    · obtain ⟨b, h1, h2, _⟩ := Arr.resize_empty zero (newShape := shape) h0 zero
      exact ⟨b, h1, h2⟩
  unfold cloneAsExplicit
  rw [hf.shape_eq, hb, Option.bind_some, hf.size_eq, ← length_allTuples, walkLoop_visits _ _ _ _ _ (visits_shapeWalker hp)]
  obtain ⟨a, h1, h2, h3, _⟩ := foldlM_set (coord := id) g (fun c out => (f.eval c).bind (fun x => out.set c x)) (allTuples shape) b hok
    (by simpa using nodup_allTuples shape) (fun s hs => (mem_allTuples _ _).mp hs) (by
      intro s hs c _ _
      rw [hf.eval_eq s ((mem_allTuples _ _).mp hs)]
      rfl)
  refine ⟨a, h1, h2, ?_⟩
  intro c hc
  exact h3 c ((mem_allTuples _ _).mpr hc)

/-- A Potts function of shape (2,3) meets the hypotheses. -/
example : Positive [2, 3] ∧ Denotes (Potts.toFun ⟨2, 3, (0 : Int), 1⟩) [2, 3] (fun c => if c[0]? = c[1]? then 0 else 1) := by
  refine ⟨by simp [Positive], rfl, rfl, ?_⟩
  intro c hc
  obtain ⟨a, b, rfl, _, _⟩ := inShape_two.mp hc
  simp [Potts.toFun, Potts.eval]

/-! ### sparse functions -/

/-- C38 for sparse functions, after any history of insertions. -/
theorem C38_sparse (shape : List Nat) (d : V) (history : List (List Nat × V)) (hh : ∀ e ∈ history, InShape shape e.1) :
    ∃ f, (Sparse.make shape d).insertAll history = some f ∧ RoundTrips Sparse.sizes (fun f => some f.serialize) Sparse.deserialize f := by
  obtain ⟨f, h1, h⟩ := Sparse.insertAll_holds history [] _ (Sparse.make_holds shape d) hh
  refine ⟨f, h1, _, _, rfl, ?_, ?_⟩
  · simp [Sparse.sizes]
    omega
  · intro rest rest'
    simp only [List.cons_append, List.append_assoc, Sparse.deserialize]
    rw [readShape_append]
    have hget : (f.shape ++ f.container.length :: (f.container.map (·.1) ++ rest))[f.shape.length]? = some f.container.length := by simp
    rw [hget]
    have hdrop : (f.shape ++ f.container.length :: (f.container.map (·.1) ++ rest)).drop (f.shape.length + 1) = f.container.map (·.1) ++ rest := by
      rw [List.drop_append]
      simp
    simp only
    rw [hdrop, readEntries_sorted f.container [] rest rest' (by simpa using h.sorted)]
    simp only [List.nil_append, Option.map_some, Option.some.injEq]
    rcases f with ⟨fd, fc, fs, fst⟩
    have := h.strides_eq
    have := h.shape_eq
    simp_all

/-! ### PottsG -/

/-- C38 for PottsG functions of order at most eleven, after any history of calls, and read at any time. -/
theorem C38_pottsG (zero : V) (shape : List Nat) (hN : shape.length ≤ 11) :
    ∃ num, PottsG.IsNumbering shape.length (bell[shape.length]?.getD 0) num ∧ ∀ parts f g, PottsG.Built zero shape num parts f g →
      f.sizes = (f.serialize.1.length, f.serialize.2.length) ∧
      ∀ rest rest' parts', Reachable PottsG.width parts' →
        ∃ parts'', PottsG.deserialize zero (f.serialize.1 ++ rest) (f.serialize.2 ++ rest') parts' = .ok f parts'' := by
  obtain ⟨b, hb⟩ := PottsG.bell_some hN
  refine ⟨PottsG.idx, by rw [hb]; exact PottsG.isNumbering_idx hN hb, ?_⟩
  intro parts f g hf
  have h := hf.holds hN hb
  refine ⟨rfl, ?_⟩
  intro rest rest' parts' hr
  obtain ⟨f0, p, h1, h2⟩ := PottsG.make_holds zero hN hb hr
  refine ⟨p, ?_⟩
  show PottsG.deserialize zero ((f.shape.length :: f.shape) ++ rest) (f.values ++ rest') parts' = _
  simp only [List.cons_append, PottsG.deserialize, PottsG.bellNumber]
  rw [readShape_append, h.shape_eq, hb]
  simp only
  rw [if_pos (show b ≤ (f.values ++ rest').length by simp [h.len])]
  have ht : (f.values ++ rest').take b = f.values := by rw [← h.len]; simp
  rw [ht]
  unfold PottsG.makeValues
  rw [h1]
  simp only
  rw [if_pos (by rw [h2.len, h.len])]
  have ht2 : f.values.take f0.values.length = f.values := by
    rw [h2.len, ← h.len]
    simp
  rw [ht2]
  have : f0.size = f.size := by rw [h2.size, h.size]
  rcases f with ⟨a, b', c⟩
  simp only at this h
  have hs := h.shape_eq
  simp only at hs
  rw [this, hs]

example : ∃ f p, PottsG.make (0 : Int) [2, 2] [] = .ok f p ∧ f.serialize = ([2, 2, 2], [0, 0]) := ⟨_, _, rfl, rfl⟩

end OpenGM.Functions
