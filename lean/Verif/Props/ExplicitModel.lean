import Verif.Lemmas.ExplicitModel
/-
C86: the values of a model in one block of memory (ExplicitStorage), and the conversion of a model to one with explicit functions (ConvertToExplicit).
-/
namespace OpenGM
namespace ExplicitModel
open Spec
variable {V : Type}

/-- C86: for every model that was built by valid calls and whose functions have at least one argument, the storage can be constructed, and `storage[gm[j]][k]` is the value
of factor `j` for its `k`-th tuple of labels, the tuples in the order in which the first label changes fastest. Missing for the full claim: functions without arguments (with
assertions enabled, the call of such a function reads an element of an empty sequence). -/
theorem C86_storage_partial {gm : GM V} {p : Problem V} (hb : BuiltModel gm p) (hne : ∀ fs ∈ gm.functions, ∀ g ∈ fs, g.shape ≠ []) :
    ∃ s, Storage.make gm = some s ∧ ∀ (j : Nat) (f : FactorRec) (t : Term V), gm.factors[j]? = some f → p.terms[j]? = some t →
      ∀ (k : Nat) (c : List Nat), (allTuples (restrict p.numLabels t.vars))[k]? = some c → s.read f k = some (t.table c) := by
  obtain ⟨s, off, ts, e, hi, hts⟩ := make_spec hne
  refine ⟨s, e, ?_⟩
  intro j f t hf ht k c hk
  have hr := hb.represents
  have hj := (List.getElem?_eq_some_iff.mp hf).1
  have hj' := (List.getElem?_eq_some_iff.mp ht).1
  have hm := (List.forall₂_iff_get.mp hr.factors).2 j hj hj'
  simp only [List.get_eq_getElem] at hm
  rw [List.getElem?_eq_getElem hj] at hf
  rw [List.getElem?_eq_getElem hj'] at ht
  rw [Option.some.inj hf, Option.some.inj ht] at hm
  obtain ⟨fn, h1, h2, h3⟩ := hm.fn
  rw [← hr.labels, ← h2] at hk
  rw [read_spec hi hts h1 hk, h3 c ((mem_allTuples _ _).mp (List.mem_of_getElem? hk))]

/-- C86: the block contains the values of all functions of the model, each function once, and nothing else: no entry is left unwritten. -/
theorem C86_storage_filled_partial {gm : GM V} (hne : ∀ fs ∈ gm.functions, ∀ g ∈ fs, g.shape ≠ []) :
    ∃ s, Storage.make gm = some s ∧ s.data = (gm.functions.flatten.flatMap (fun f => (allTuples f.shape).map f.table)).map some := by
  obtain ⟨s, off, ts, e, hi, _⟩ := make_spec hne
  refine ⟨s, e, ?_⟩
  rw [hi.data]
  simp
  rfl

/-- C86: a model that was built by valid calls, whose functions have at least one argument, and in which a function type with more than one function is not followed by
another type that is used, is converted to a model with the same variables, whose factors have the same variables and the same values in the same order, so that every
labeling has the same value for every operation; all its functions are explicit functions, one for each function of the old model. Missing for the full claim: several
functions of one type followed by another type (`C86_violated_types`) and functions without arguments. -/
theorem C86_convert_partial (zero : V) {gm : GM V} {p : Problem V} (hb : BuiltModel gm p) (hne : ∀ fs ∈ gm.functions, ∀ g ∈ fs, g.shape ≠ [])
    (ho : ∀ (i j : Nat) (fs gs : List (Fn V)), gm.functions[i]? = some fs → gm.functions[j]? = some gs → i < j → gs ≠ [] → fs.length ≤ 1) :
    ∃ out, convert zero gm = .ok () out ∧ out.numLabels = p.numLabels ∧ out.factors.length = p.terms.length ∧
      (∀ (j : Nat) (t : Term V), p.terms[j]? = some t → ∃ f, out.factors[j]? = some f ∧ out.scope f = t.vars ∧
        ∀ c, InShape (restrict p.numLabels t.vars) c → t.vars ≠ [] → out.callFactor f c = some (t.table c)) ∧
      (∀ (o : Operation V) (x : List Nat), p.Labeling x → out.evaluate o x = some (p.energy o x)) ∧
      out.functions.map List.length = [(gm.functions.map List.length).sum] ∧ Represents out p := by
  have hr := hb.represents
  obtain ⟨out, tbl, e, h1, h2, h3⟩ := convert_spec zero hr.toStores hne ho
  refine ⟨out, e, h1.labels, h1.factors.length_eq, ?_, ?_, ?_, h1⟩
  · intro j t ht
    have hj' := (List.getElem?_eq_some_iff.mp ht).1
    have hj : j < out.factors.length := by rw [h1.factors.length_eq]; exact hj'
    have hm := (List.forall₂_iff_get.mp h1.factors).2 j hj hj'
    simp only [List.get_eq_getElem] at hm
    rw [List.getElem?_eq_getElem hj'] at ht
    rw [Option.some.inj ht] at hm
    refine ⟨_, List.getElem?_eq_getElem hj, hm.scope, ?_⟩
    intro c hc hv
    obtain ⟨fn, g1, g2, g3⟩ := hm.fn
    rw [← h1.labels, ← g2] at hc
    unfold GM.callFactor
    rw [g1]
    simp only
    rw [callFn_eq _ hc, g3 c hc]
    rw [g2]
    intro hn
    exact hv (by simpa [restrict] using hn)
  · intro o x hx
    exact evaluate_spec o h1.toStores x hx
  · rw [h2]
    simp [h3.length_eq, List.length_flatten]

/-! ### concrete cases -/

/-- Two functions of the first type, one of the second one. -/
def mixedOps : List (BuildOp Int) :=
  [.addVariable 2, .addVariable 3, .addFunction 0 ⟨[2], fun c => (c.headD 0 : Int)⟩, .addFunction 0 ⟨[3], fun c => 5 * (c.headD 0 : Int)⟩,
   .addFunction 1 ⟨[2, 3], fun c => c.foldl (fun a l => 2 * a + (l : Int)) 0⟩, .addFactor 0 [0], .addFactor 1 [1], .addFactor 2 [0, 1]]

/-- One function of the first type, two of the second one. -/
def goodOps : List (BuildOp Int) :=
  [.addVariable 2, .addVariable 3, .addFunction 1 ⟨[2], fun c => (c.headD 0 : Int)⟩, .addFunction 1 ⟨[3], fun c => 5 * (c.headD 0 : Int)⟩,
   .addFunction 0 ⟨[2, 3], fun c => c.foldl (fun a l => 2 * a + (l : Int)) 0⟩, .addFactor 0 [0], .addFactor 1 [1], .addFactor 2 [0, 1], .addFactor 1 [1]]

/-- The model after a history. -/
def modelAfter (nTypes : Nat) (ops : List (BuildOp Int)) : GM Int :=
  match (Client.init nTypes).run (fun _ _ => false) ops with
  | .ok _ c => c.gm
  | _ => GM.empty nTypes

theorem mixed_built : BuiltModel (modelAfter 2 mixedOps) (builtAfter mixedOps).problem := by
  refine ⟨2, fun _ _ => false, mixedOps, _, by intro f g h; simp at h, ?_, rfl, rfl, rfl⟩
  simp [mixedOps, ValidHistory, BuildOp.Valid, BuildOp.apply, Built.empty, restrict]

theorem good_built : BuiltModel (modelAfter 2 goodOps) (builtAfter goodOps).problem := by
  refine ⟨2, fun _ _ => false, goodOps, _, by intro f g h; simp at h, ?_, rfl, rfl, rfl⟩
  simp [goodOps, ValidHistory, BuildOp.Valid, BuildOp.apply, Built.empty, restrict]

example : ∃ s, Storage.make (modelAfter 2 mixedOps) = some s ∧ s.functionIndexToStart = [0, 2, 5] ∧
    s.data = [0, 1, 0, 5, 10, 0, 2, 1, 3, 2, 4].map (fun x : Int => some x) := ⟨_, rfl, by decide +kernel, by decide +kernel⟩

example : BuiltModel (modelAfter 2 mixedOps) (builtAfter mixedOps).problem ∧ (∀ fs ∈ (modelAfter 2 mixedOps).functions, ∀ g ∈ fs, g.shape ≠ []) :=
  ⟨mixed_built, by decide⟩

example : BuiltModel (modelAfter 2 goodOps) (builtAfter goodOps).problem ∧ (∀ fs ∈ (modelAfter 2 goodOps).functions, ∀ g ∈ fs, g.shape ≠ []) ∧
    (∀ (i j : Nat) (fs gs : List (Fn Int)), (modelAfter 2 goodOps).functions[i]? = some fs → (modelAfter 2 goodOps).functions[j]? = some gs → i < j → gs ≠ [] → fs.length ≤ 1) := by
  refine ⟨good_built, by decide, ?_⟩
  intro i j fs gs hi hj hij _
  have hl : (modelAfter 2 goodOps).functions.length = 2 := by decide
  have h2 := (List.getElem?_eq_some_iff.mp hj).1
  have hi0 : i = 0 := by omega
  subst hi0
  have : (modelAfter 2 goodOps).functions.map List.length = [1, 2] := by decide
  have h3 := congrArg (fun l => l[0]?) this
  simp only [List.getElem?_map, hi] at h3
  simp at h3
  omega

/-- Undefined behaviour. -/
def isUb {σ α : Type} : Outcome σ α → Bool
  | .ub => true
  | _ => false

/-- C86 is violated: for a model with two functions of its first type and one function of its second type (all with at least one argument, built by valid calls), the conversion
orders function identifiers in a `std::map` by `operator<`, which is no strict weak order on these identifiers: the identifiers (1, type 0) and (0, type 1) are each less than
the other one. The behaviour is undefined; a lookup may miss its key and give the factor the first function of the new model. -/
theorem C86_violated_types : ∃ gm : GM Int, BuiltModel gm (builtAfter mixedOps).problem ∧ (∀ fs ∈ gm.functions, ∀ g ∈ fs, g.shape ≠ []) ∧
    gm.functions.map List.length = [2, 1] ∧ convert 0 gm = .ub := by
  refine ⟨_, mixed_built, by decide, by decide, ?_⟩
  have : isUb (convert 0 (modelAfter 2 mixedOps)) = true := by decide +kernel
  revert this
  cases convert 0 (modelAfter 2 mixedOps) <;> simp [isUb]

/-- C86: destroying a storage that was not copied frees its block. -/
theorem C86_destroy (address : Nat) (h : Blocks) : (Owner.make address h).1.destroy (Owner.make address h).2 = some h := by
  simp [Owner.make, Owner.destroy]

/-- C86 is violated: a copy of a storage shares the block with the original (the class declares no copy constructor), so destroying both deletes the block twice. -/
theorem C86_violated_copy (address : Nat) (h : Blocks) (hn : address ∉ h) :
    let s := Owner.make address h
    let c := s.1.copy s.2
    ∃ h', s.1.destroy c.2 = some h' ∧ c.1.destroy h' = none := by
  refine ⟨h, by simp [Owner.make, Owner.copy, Owner.destroy], ?_⟩
  simp [Owner.make, Owner.copy, Owner.destroy, hn]

example : (5 : Nat) ∉ ([1, 2] : Blocks) := by decide

end ExplicitModel
end OpenGM
