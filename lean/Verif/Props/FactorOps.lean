import Verif.Lemmas.FactorBest
/-
C24, C25, C26, C56, C57: operations on factors.

`HasValue L vars shape read f` (Spec/FactorAlgebra.lean) says that the stored factor with variables `vars`, of shape `shape` and with read
access `read`, has the label counts `L` and the value `f x` at every labeling `x` in range.
-/
namespace OpenGM
open Spec
namespace FactorOps
open Marray Geometry Walkers
variable {V : Type}

/-- C24 (part): the result of a binary operation is a factor on the sorted union of the variables with the pointwise values.
Missing: two factors without variables (`C24_binary_violated`). -/
theorem C24_binary_partial (zero : V) (op : V → V → V) {L : Nat → Nat} {a b : Fn V} {via vib : List Nat} {f g : (Nat → Nat) → V}
    (ha : HasValue L via a.shape a.eval f) (hb : HasValue L vib b.shape b.eval g) (hsa : StrictlySorted via) (hsb : StrictlySorted vib)
    (hpa : ∀ v ∈ via, 0 < L v) (hpb : ∀ v ∈ vib, 0 < L v) (hne : via ≠ [] ∨ vib ≠ []) :
    ∃ c vic, binaryOp zero op a b via vib = some (c, vic) ∧ StrictlySorted vic ∧ (∀ v, v ∈ vic ↔ v ∈ via ∨ v ∈ vib) ∧
      HasValue L vic c.geometry.shape c.get (fun x => op (f x) (g x)) := by
  obtain ⟨c, vic, h1, h2, h3, _, h5⟩ := binaryOp_spec zero op ha hb hsa hsb hpa hpb hne
  exact ⟨c, vic, h1, h2, h3, h5⟩

/-- C24 fails for two factors without variables: the result is resized to shape {0} and then written to. -/
theorem C24_binary_violated : ∃ (a b : Fn Nat) (f g : (Nat → Nat) → Nat),
    HasValue (fun _ => 2) [] a.shape a.eval f ∧ HasValue (fun _ => 2) [] b.shape b.eval g ∧ binaryOp 0 (· + ·) a b [] [] = none :=
  ⟨⟨[], fun _ => some 3⟩, ⟨[], fun _ => some 4⟩, fun _ => 3, fun _ => 4, ⟨rfl, fun _ _ _ => rfl⟩, ⟨rfl, fun _ _ _ => rfl⟩, by decide⟩

theorem C24_inplace_violated : ∃ (a : Arr Nat) (b : Fn Nat) (f g : (Nat → Nat) → Nat),
    HasValue (fun _ => 2) [] a.geometry.shape a.get f ∧ HasValue (fun _ => 2) [] b.shape b.eval g ∧ binaryInplace 0 (· + ·) a b [] [] = none :=
  ⟨.scalar 3 defaultOrder, ⟨[], fun _ => some 4⟩, fun _ => 3, fun _ => 4, scalar_hasValue _ _ _ _ (fun _ => rfl), ⟨rfl, fun _ _ _ => rfl⟩, by decide⟩

/-- C24: a unary operation (also: a binary operation with a number) is pointwise. Missing: factors without variables
(`C24_unary_violated`). -/
theorem C24_unary_partial (zero : V) (g : V → V) {L : Nat → Nat} {a : Fn V} {via : List Nat} {f : (Nat → Nat) → V}
    (ha : HasValue L via a.shape a.eval f) (hs : StrictlySorted via) (hpa : ∀ v ∈ via, 0 < L v) (hne : via ≠ []) :
    ∃ c, unaryOp zero g a = some c ∧ HasValue L via c.geometry.shape c.get (fun x => g (f x)) := by
  obtain ⟨c, h1, _, h3⟩ := unaryOp_spec zero g ha (nodup_of_sorted hs) hpa hne
  exact ⟨c, h1, h3⟩

theorem C24_unary_violated : ∃ (a : Fn Nat) (f : (Nat → Nat) → Nat), HasValue (fun _ => 2) [] a.shape a.eval f ∧
    unaryOp 0 (· + 1) a = none :=
  ⟨⟨[], fun _ => some 3⟩, fun _ => 3, ⟨rfl, fun _ _ _ => rfl⟩, by decide⟩

/-- The IndependentFactors a program can build, each with the function of labelings it is meant to be: made from a factor of a model (any
function type) or constant, and changed by any sequence of operations. -/
inductive Built (zero : V) (L : Nat → Nat) : IFactor V → ((Nat → Nat) → V) → Prop
  | ofFactor {vars : List Nat} {src : Fn V} {f F} : HasValue L vars src.shape src.eval f → StrictlySorted vars → (∀ v ∈ vars, 0 < L v) →
      ofFactor zero vars src = some F → Built zero L F f
  | assignFactor {vars : List Nat} {src : Fn V} {f F} : HasValue L vars src.shape src.eval f → StrictlySorted vars → (∀ v ∈ vars, 0 < L v) →
      assignFactor zero vars src = some F → Built zero L F f
  | constant {vars : List Nat} {value F} : vars ≠ [] → StrictlySorted vars → (∀ v ∈ vars, 0 < L v) →
      constant zero vars (vars.map L) value = some F → Built zero L F (fun _ => value)
  | binary (op : V → V → V) {F G : IFactor V} {f g} {c vic} : Built zero L F f → Built zero L G g → F.vars ≠ [] ∨ G.vars ≠ [] →
      binaryOp zero op (ofArr F.fn) (ofArr G.fn) F.vars G.vars = some (c, vic) → Built zero L ⟨vic, c⟩ (fun x => op (f x) (g x))
  | inplace (op : V → V → V) {F : IFactor V} {vib : List Nat} {b : Fn V} {f g} {c vic} : Built zero L F f → HasValue L vib b.shape b.eval g →
      StrictlySorted vib → (∀ v ∈ vib, 0 < L v) → F.vars ≠ [] ∨ vib ≠ [] →
      binaryInplace zero op F.fn b F.vars vib = some (c, vic) → Built zero L ⟨vic, c⟩ (fun x => op (f x) (g x))
  | unary (g : V → V) {F : IFactor V} {f} {c} : Built zero L F f → F.vars ≠ [] →
      unaryOp zero g (ofArr F.fn) = some c → Built zero L ⟨F.vars, c⟩ (fun x => g (f x))
  | unaryInplace (g : V → V) {F : IFactor V} {f} {c} : Built zero L F f →
      unaryInplace g F.fn = some c → Built zero L ⟨F.vars, c⟩ (fun x => g (f x))
  | operateUnary (g : V → V) {F G : IFactor V} {f} : Built zero L F f → operateUnary g F = some G → Built zero L G (fun x => g (f x))
  | accumulate {accOp : V → V → V} {neutral : V} {F : IFactor V} {f} {c vars} (acc : List Nat) : (∀ v, accOp v neutral = v) → Built zero L F f →
      F.vars ≠ [] → accumulateSome zero accOp neutral (ofArr F.fn) F.vars acc = some (c, vars) →
      Built zero L ⟨vars, c⟩ (marginal accOp neutral L (F.vars.filter (fun v => acc.contains v)) f)
  | accumulateInplace {accOp : V → V → V} {neutral : V} {F : IFactor V} {f} {c vars} (acc : List Nat) : (∀ v, accOp v neutral = v) →
      Built zero L F f → F.vars ≠ [] → accumulateInplace zero accOp neutral F.fn F.vars acc = some (c, vars) →
      Built zero L ⟨vars, c⟩ (marginal accOp neutral L (F.vars.filter (fun v => acc.contains v)) f)
  | fixVariables {F G : IFactor V} {f} {idx labels : List Nat} : Built zero L F f → StrictlySorted idx → labels.length = idx.length →
      (∀ k v l : Nat, idx[k]? = some v → labels[k]? = some l → v ∈ F.vars → l < L v) →
      fixVariables zero F idx labels = some G → Built zero L G (fun x => f (override x idx labels))

/-- The invariant of IndependentFactors. -/
structure IsFactor (L : Nat → Nat) (F : IFactor V) (f : (Nat → Nat) → V) : Prop where
  sorted : StrictlySorted F.vars
  positive : ∀ v ∈ F.vars, 0 < L v
  ok : F.fn.Ok (F.vars.map L) defaultOrder
  value : HasValue L F.vars F.fn.geometry.shape F.fn.get f

theorem Built.isFactor {zero : V} {L : Nat → Nat} {F : IFactor V} {f : (Nat → Nat) → V} (h : Built zero L F f) : IsFactor L F f := by
  induction h with
  | ofFactor hv hs hp he =>
    obtain ⟨F', h1, h2, h3, h4⟩ := ofFactor_spec zero hv (nodup_of_sorted hs) hp
    rw [he] at h1; cases h1
    subst h2
    exact ⟨hs, hp, h3, h4⟩
  | assignFactor hv hs hp he =>
    obtain ⟨F', h1, h2, h3, h4⟩ := assignFactor_spec zero hv (nodup_of_sorted hs) hp
    rw [he] at h1; cases h1
    subst h2
    exact ⟨hs, hp, h3, h4⟩
  | constant hne hs hp he =>
    obtain ⟨F', h1, h2, h3, h4⟩ := constant_spec zero _ hne
    rw [he] at h1; cases h1
    subst h2
    exact ⟨hs, hp, h3, h4⟩
  | binary op hF hG hne he ihF ihG =>
    obtain ⟨c, vic, h1, h2, h3, h4, h5⟩ := binaryOp_spec zero op (ofArr_hasValue ihF.value) (ofArr_hasValue ihG.value) ihF.sorted ihG.sorted ihF.positive ihG.positive hne
    rw [he] at h1; cases h1
    refine ⟨h2, ?_, h4, h5⟩
    intro v hv
    rcases (h3 v).mp hv with h | h
    · exact ihF.positive v h
    · exact ihG.positive v h
  | inplace op hF hb hsb hpb hne he ihF =>
    obtain ⟨c, vic, h1, h2, h3, ⟨o', ho, h4⟩, h5⟩ := binaryInplace_spec zero op ihF.ok ihF.value hb ihF.sorted hsb ihF.positive hpb hne
    rw [he] at h1; cases h1
    have ho' : o' = defaultOrder := by rcases ho with h | h <;> exact h
    subst ho'
    refine ⟨h2, ?_, h4, h5⟩
    intro v hv
    rcases (h3 v).mp hv with h | h
    · exact ihF.positive v h
    · exact hpb v h
  | unary g hF hne he ihF =>
    obtain ⟨c, h1, h2, h3⟩ := unaryOp_spec zero g (ofArr_hasValue ihF.value) (nodup_of_sorted ihF.sorted) ihF.positive hne
    rw [he] at h1; cases h1
    exact ⟨ihF.sorted, ihF.positive, h2, h3⟩
  | unaryInplace g hF he ihF =>
    obtain ⟨c, h1, h2, h3⟩ := unaryInplace_spec g ihF.ok ihF.value (nodup_of_sorted ihF.sorted) ihF.positive
    rw [he] at h1; cases h1
    exact ⟨ihF.sorted, ihF.positive, h2, h3⟩
  | operateUnary g hF he ihF =>
    obtain ⟨c, h1, h2, h3, h4⟩ := operateUnary_spec g ihF.ok ihF.value (nodup_of_sorted ihF.sorted)
    rw [he] at h1; cases h1
    rw [← h2] at h3 h4
    exact ⟨h2 ▸ ihF.sorted, h2 ▸ ihF.positive, h3, h4⟩
  | accumulate acc hn hF hne he ihF =>
    obtain ⟨c, h1, h2, h3⟩ := accumulateSome_spec zero _ _ hn acc (ofArr_hasValue ihF.value) (nodup_of_sorted ihF.sorted) ihF.positive hne
    rw [he] at h1; cases h1
    exact ⟨ihF.sorted.sublist List.filter_sublist, fun v hv => ihF.positive v (List.mem_of_mem_filter hv), h2, h3⟩
  | accumulateInplace acc hn hF hne he ihF =>
    obtain ⟨c, h1, ⟨o', ho, h2⟩, h3⟩ := accumulateInplace_spec zero _ _ hn acc ihF.ok ihF.value (nodup_of_sorted ihF.sorted) ihF.positive hne
    rw [he] at h1; cases h1
    have ho' : o' = defaultOrder := by rcases ho with h | h <;> exact h
    subst ho'
    exact ⟨ihF.sorted.sublist List.filter_sublist, fun v hv => ihF.positive v (List.mem_of_mem_filter hv), h2, h3⟩
  | fixVariables hF hi hl hlab he ihF =>
    obtain ⟨G, h1, h2, h3, h4⟩ := fixVariables_spec zero ihF.ok ihF.value ihF.sorted ihF.positive hi hl hlab
    rw [he] at h1; cases h1
    refine ⟨?_, ?_, h3, h4⟩
    · rw [h2]; exact ihF.sorted.sublist List.filter_sublist
    · rw [h2]; exact fun v hv => ihF.positive v (List.mem_of_mem_filter hv)

/-- C24, C25, C26, C56, C57 over histories: after any sequence of operations, the factor has the values that the operations on functions of
labelings give; its variables are sorted and its shape holds their numbers of labels. -/
theorem C57_history {zero : V} {L : Nat → Nat} {F : IFactor V} {f : (Nat → Nat) → V} (h : Built zero L F f) :
    StrictlySorted F.vars ∧ HasValue L F.vars F.fn.geometry.shape F.fn.get f := ⟨h.isFactor.sorted, h.isFactor.value⟩

/-- C24 (part): the in-place form. Missing: both without variables. -/
theorem C24_inplace_partial {zero : V} (op : V → V → V) {L : Nat → Nat} {F : IFactor V} {b : Fn V} {vib : List Nat} {f g : (Nat → Nat) → V}
    (hF : Built zero L F f) (hb : HasValue L vib b.shape b.eval g) (hsb : StrictlySorted vib)
    (hpb : ∀ v ∈ vib, 0 < L v) (hne : F.vars ≠ [] ∨ vib ≠ []) :
    ∃ c vic, binaryInplace zero op F.fn b F.vars vib = some (c, vic) ∧ StrictlySorted vic ∧ (∀ v, v ∈ vic ↔ v ∈ F.vars ∨ v ∈ vib) ∧
      HasValue L vic c.geometry.shape c.get (fun x => op (f x) (g x)) := by
  have i := hF.isFactor
  obtain ⟨c, vic, h1, h2, h3, _, h5⟩ := binaryInplace_spec zero op i.ok i.value hb i.sorted hsb i.positive hpb hne
  exact ⟨c, vic, h1, h2, h3, h5⟩

/-- C24: unary operations in place, in both implementations, also without variables. -/
theorem C24_unary_inplace {zero : V} (g : V → V) {L : Nat → Nat} {F : IFactor V} {f : (Nat → Nat) → V} (hF : Built zero L F f) :
    (∃ c, unaryInplace g F.fn = some c ∧ HasValue L F.vars c.geometry.shape c.get (fun x => g (f x))) ∧
    ∃ G, operateUnary g F = some G ∧ G.vars = F.vars ∧ HasValue L G.vars G.fn.geometry.shape G.fn.get (fun x => g (f x)) := by
  have i := hF.isFactor
  obtain ⟨c, h1, _, h3⟩ := unaryInplace_spec g i.ok i.value (nodup_of_sorted i.sorted) i.positive
  obtain ⟨G, g1, g2, g3, g4⟩ := operateUnary_spec g i.ok i.value (nodup_of_sorted i.sorted)
  exact ⟨⟨c, h1, h3⟩, G, g1, g2, by rw [g2]; exact g4⟩

/-- C25: accumulating all variables, for factors of any function type. -/
theorem C25_accumulateAll (accOp : V → V → V) (neutral : V) {L : Nat → Nat} {a : Fn V} {vs : List Nat} {f : (Nat → Nat) → V}
    (ha : HasValue L vs a.shape a.eval f) (hs : StrictlySorted vs) (hp : ∀ v ∈ vs, 0 < L v) (x : Nat → Nat) :
    accumulateAll accOp neutral a = some (marginal accOp neutral L vs f x) := accumulateAll_spec accOp neutral ha (nodup_of_sorted hs) hp x

/-- C25 (part): accumulating the variables `acc` (which may contain variables that the factor does not have). Missing: factors without
variables (`C25_accumulate_violated`). -/
theorem C25_accumulate_partial (zero : V) (accOp : V → V → V) (neutral : V) (hneutral : ∀ v, accOp v neutral = v)
    {L : Nat → Nat} {a : Fn V} {vs : List Nat} (acc : List Nat) {f : (Nat → Nat) → V}
    (ha : HasValue L vs a.shape a.eval f) (hs : StrictlySorted vs) (hp : ∀ v ∈ vs, 0 < L v) (hne : vs ≠ []) :
    ∃ c, accumulateSome zero accOp neutral a vs acc = some (c, vs.filter (fun v => !acc.contains v)) ∧
      HasValue L (vs.filter (fun v => !acc.contains v)) c.geometry.shape c.get
        (marginal accOp neutral L (vs.filter (fun v => acc.contains v)) f) := by
  obtain ⟨c, h1, _, h3⟩ := accumulateSome_spec zero accOp neutral hneutral acc ha (nodup_of_sorted hs) hp hne
  exact ⟨c, h1, h3⟩

/-- C25 (part): in place. -/
theorem C25_inplace_partial {zero : V} (accOp : V → V → V) (neutral : V) (hneutral : ∀ v, accOp v neutral = v)
    {L : Nat → Nat} {F : IFactor V} (acc : List Nat) {f : (Nat → Nat) → V} (hF : Built zero L F f) (hne : F.vars ≠ []) :
    ∃ c, accumulateInplace zero accOp neutral F.fn F.vars acc = some (c, F.vars.filter (fun v => !acc.contains v)) ∧
      HasValue L (F.vars.filter (fun v => !acc.contains v)) c.geometry.shape c.get
        (marginal accOp neutral L (F.vars.filter (fun v => acc.contains v)) f) := by
  have i := hF.isFactor
  obtain ⟨c, h1, _, h3⟩ := accumulateInplace_spec zero accOp neutral hneutral acc i.ok i.value (nodup_of_sorted i.sorted) i.positive hne
  exact ⟨c, h1, h3⟩

/-- C25 fails for factors without variables: 0 is accumulated instead of the value of the factor. -/
theorem C25_accumulate_violated : ∃ (a : Fn Nat) (f : (Nat → Nat) → Nat) (c : Arr Nat), HasValue (fun _ => 2) [] a.shape a.eval f ∧
    accumulateSome 0 (· + ·) 0 a [] [] = some (c, []) ∧ c.get [] = some 0 ∧ ∀ x, marginal (· + ·) 0 (fun _ => 2) [] f x = 3 :=
  ⟨⟨[], fun _ => some 3⟩, fun _ => 3, .scalar 0 defaultOrder, ⟨rfl, fun _ _ _ => rfl⟩, rfl, by decide, fun _ => rfl⟩

theorem C25_inplace_violated : ∃ (a : Arr Nat) (f : (Nat → Nat) → Nat), HasValue (fun _ => 2) [] a.geometry.shape a.get f ∧
    accumulateInplace 0 (· + ·) 0 a [] [] = none :=
  ⟨.scalar 3 defaultOrder, fun _ => 3, scalar_hasValue _ _ _ _ (fun _ => rfl), by decide⟩

/-- C25 for the minimum: the accumulated value is attained by some labels of the accumulated variables and no labels undercut it. -/
theorem C25_minimum {lt : V → V → Bool} (ho : StrictOrder lt) (htot : ∀ a b, lt a b = false → lt b a = false → a = b) {neutral : V}
    (hneutral : ∀ v, lt neutral v = false) {L : Nat → Nat} {acc : List Nat} (hp : ∀ v ∈ acc, 0 < L v) (f : (Nat → Nat) → V) (x : Nat → Nat) :
    (∃ t, InShape (acc.map L) t ∧ marginal (minOp lt) neutral L acc f x = f (override x acc t)) ∧
    ∀ t, InShape (acc.map L) t → lt (f (override x acc t)) (marginal (minOp lt) neutral L acc f x) = false :=
  marginal_min ho htot hneutral hp f x

/-- C25 for the minimum with its argument: the labels returned are in range and attain the minimum. All values must be better than the
neutral element (otherwise the labels are never written). -/
theorem C25_argmin {lt : V → V → Bool} (ho : StrictOrder lt) (htot : ∀ a b, lt a b = false → lt b a = false → a = b) {neutral : V}
    {L : Nat → Nat} {a : Fn V} {vs : List Nat} {f : (Nat → Nat) → V} (ha : HasValue L vs a.shape a.eval f) (hs : StrictlySorted vs)
    (hp : ∀ v ∈ vs, 0 < L v) (hbeats : ∀ x, Labels L vs x → lt (f x) neutral = true) :
    ∃ t m, accumulateAllState lt (minOp lt) neutral a = some (m, t) ∧ InShape (vs.map L) t ∧
      (∀ x, vs.map x = t → f x = m) ∧ ∀ x, Labels L vs x → lt (f x) m = false :=
  accumulateAllState_min ho htot ha (nodup_of_sorted hs) hp hbeats

/-- C26: fixing variables. -/
theorem C26_fixVariables {zero : V} {L : Nat → Nat} {F : IFactor V} {f : (Nat → Nat) → V} (hF : Built zero L F f)
    {idx labels : List Nat} (hi : StrictlySorted idx) (hl : labels.length = idx.length)
    (hlab : ∀ k v l : Nat, idx[k]? = some v → labels[k]? = some l → v ∈ F.vars → l < L v) :
    ∃ G, fixVariables zero F idx labels = some G ∧ G.vars = F.vars.filter (fun v => !idx.contains v) ∧
      HasValue L G.vars G.fn.geometry.shape G.fn.get (fun x => f (override x idx labels)) := by
  have i := hF.isFactor
  obtain ⟨G, h1, h2, _, h4⟩ := fixVariables_spec zero i.ok i.value i.sorted i.positive hi hl hlab
  exact ⟨G, h1, h2, h4⟩

/-- C56: construction from, and assignment of, a factor of a model keeps variables and values. -/
theorem C56_ofFactor (zero : V) {L : Nat → Nat} {vars : List Nat} {src : Fn V} {f : (Nat → Nat) → V}
    (hv : HasValue L vars src.shape src.eval f) (hs : StrictlySorted vars) (hp : ∀ v ∈ vars, 0 < L v) :
    (∃ F, ofFactor zero vars src = some F ∧ F.vars = vars ∧ HasValue L vars F.fn.geometry.shape F.fn.get f) ∧
    ∃ F, assignFactor zero vars src = some F ∧ F.vars = vars ∧ HasValue L vars F.fn.geometry.shape F.fn.get f := by
  obtain ⟨F, h1, h2, _, h4⟩ := ofFactor_spec zero hv (nodup_of_sorted hs) hp
  obtain ⟨G, g1, g2, _, g4⟩ := assignFactor_spec zero hv (nodup_of_sorted hs) hp
  exact ⟨⟨F, h1, h2, h4⟩, G, g1, g2, g4⟩

/-- C56 (part): a constant factor has the given value. Missing: no variables (`C56_constant_violated`). -/
theorem C56_constant_partial (zero value : V) {L : Nat → Nat} {vars : List Nat} (hne : vars ≠ []) :
    ∃ F, constant zero vars (vars.map L) value = some F ∧ F.vars = vars ∧ HasValue L vars F.fn.geometry.shape F.fn.get (fun _ => value) := by
  obtain ⟨F, h1, h2, _, h4⟩ := constant_spec zero value (L := L) hne
  exact ⟨F, h1, h2, h4⟩

/-- C56 fails for a constant factor without variables: its value is `T()`. -/
theorem C56_constant_violated : ∃ F : IFactor Nat, constant 0 [] [] 7 = some F ∧ F.fn.get [] = some 0 :=
  ⟨⟨[], .scalar 0 defaultOrder⟩, rfl, by decide⟩

/-- C57: `subtractOffset` subtracts the minimum. -/
theorem C57_subtractOffset {zero : V} {lt : V → V → Bool} (ho : StrictOrder lt) (htot : ∀ a b, lt a b = false → lt b a = false → a = b)
    (sub : V → V → V) {neutral : V} {L : Nat → Nat} {F : IFactor V} {f : (Nat → Nat) → V} (hF : Built zero L F f) (hne : F.vars ≠ [])
    (hbeats : ∀ x, Labels L F.vars x → lt (f x) neutral = true) :
    ∃ G m, subtractOffset zero lt sub neutral F = some G ∧ G.vars = F.vars ∧
      HasValue L G.vars G.fn.geometry.shape G.fn.get (fun x => sub (f x) m) ∧
      (∃ x, Labels L F.vars x ∧ f x = m) ∧ ∀ x, Labels L F.vars x → lt (f x) m = false := by
  have i := hF.isFactor
  have hnd := nodup_of_sorted i.sorted
  obtain ⟨t, m, h1, h2, h3, h4⟩ := accumulateAllState_min ho htot (ofArr_hasValue i.value) hnd i.positive hbeats
  unfold subtractOffset
  rw [if_neg (by simpa using hne), h1]
  simp only
  obtain ⟨G, g1, g2, g3, g4⟩ := operateUnary_spec (fun x => sub x m) i.ok i.value hnd
  have hl := labelingOf_spec hnd h2
  exact ⟨G, m, g1, g2, by rw [g2]; exact g4, ⟨_, hl.2, h3 _ hl.1⟩, h4⟩

/-! ### examples: hypotheses are satisfiable -/

/-- Two labels for even, three for odd variables. -/
def exL (v : Nat) : Nat := if v % 2 = 0 then 2 else 3

/-- A function of the variables 1 and 4. -/
def exA : Fn Nat := ⟨[3, 2], fun | a :: b :: _ => some (10 * a + b) | _ => none⟩

/-- A function of the variables 0, 4. -/
def exB : Fn Nat := ⟨[2, 2], fun | a :: b :: _ => some (a + 5 * b) | _ => none⟩

theorem exA_value : HasValue exL [1, 4] exA.shape exA.eval (fun x => 10 * x 1 + x 4) := ⟨by decide, fun _ _ _ => rfl⟩
theorem exB_value : HasValue exL [0, 4] exB.shape exB.eval (fun x => x 0 + 5 * x 4) := ⟨by decide, fun _ _ _ => rfl⟩
theorem exL_pos (v : Nat) : 0 < exL v := by unfold exL; split <;> omega
theorem exSorted : StrictlySorted [1, 4] ∧ StrictlySorted [0, 4] := ⟨by simp [StrictlySorted], by simp [StrictlySorted]⟩

example : (binaryOp 0 (· + ·) exA exB [1, 4] [0, 4]).map (fun r => (r.2, r.1.geometry.shape, r.1.get [1, 2, 1])) =
    some ([0, 1, 4], [2, 3, 2], some 27) := by decide
example : ∃ c vic, binaryOp 0 (· + ·) exA exB [1, 4] [0, 4] = some (c, vic) ∧ StrictlySorted vic ∧ (∀ v, v ∈ vic ↔ v ∈ [1, 4] ∨ v ∈ [0, 4]) ∧
    HasValue exL vic c.geometry.shape c.get (fun x => (10 * x 1 + x 4) + (x 0 + 5 * x 4)) :=
  C24_binary_partial 0 (· + ·) exA_value exB_value exSorted.1 exSorted.2 (fun v _ => exL_pos v) (fun v _ => exL_pos v) (Or.inl (by simp))
example : (accumulateSome 0 (· + ·) 0 exA [1, 4] [4, 7]).map (fun r => (r.2, r.1.geometry.shape, r.1.get [2])) = some ([1], [3], some 41) := by decide
example : ∃ F, ofFactor 0 [1, 4] exA = some F ∧ Built 0 exL F (fun x => 10 * x 1 + x 4) := by
  obtain ⟨⟨F, h, _⟩, _⟩ := C56_ofFactor 0 exA_value exSorted.1 (fun v _ => exL_pos v)
  exact ⟨F, h, .ofFactor exA_value exSorted.1 (fun v _ => exL_pos v) h⟩
example : ((ofFactor 0 [1, 4] exA).bind (fun F => fixVariables 0 F [0, 4] [9, 1])).map (fun G => (G.vars, G.fn.geometry.shape, G.fn.get [2])) =
    some ([1], [3], some 21) := by decide
/-- Hypotheses of the statements about minima: numbers below 100 (as `Fin 100`), neutral element 99. -/
example : StrictOrder (fun a b : Fin 100 => decide (a < b)) ∧
    (∀ a b : Fin 100, decide (a < b) = false → decide (b < a) = false → a = b) ∧ ∀ v : Fin 100, decide ((99 : Fin 100) < v) = false :=
  ⟨⟨fun a => by simp, fun a b c h1 h2 => by simp at *; omega⟩, fun a b h1 h2 => by simp at *; omega, fun v => by simp; omega⟩

end FactorOps
end OpenGM
