import Verif.Lemmas.Built
import Verif.Lemmas.MoveOptimal
import Verif.Props.GraphicalModel
/-
C14-C17: the class Movemaker.

`multiplier` says whether OPERATOR is Multiplier (then valueAfterMove re-evaluates the model and no law is needed);
otherwise `iop` must undo `op` (`Laws`: e.g. Adder on an abelian group). `bop`, `reevaluate`: see Model/Movemaker.lean.
-/
namespace OpenGM
open Spec
variable {V : Type}

/-- The comparison and the operation fit together, as needed by moveOptimally. -/
structure MoveContext (o : InvOperation V) (bop : V → V → Bool) (reevaluate : V → Bool) : Prop where
  comm : o.toOperation.IsCommMonoid
  order : StrictOrder bop
  reflects : Reflects o.toOperation bop
  replace : Replaceable o bop reevaluate

/-- The Movemaker objects that a program can have: constructed for model `gm` (which represents `p`), and then any number of
calls with distinct existing variables and labels in range. -/
inductive Reachable (o : InvOperation V) (multiplier : Bool) (gm : GM V) (p : Problem V) : Movemaker V → Prop
  | construct {m} : (∀ n ∈ p.numLabels, 0 < n) → Movemaker.ofModel o gm = some m → Reachable o multiplier gm p m
  | constructFrom {m} (y : List Nat) : p.Labeling y → Movemaker.ofLabels o gm y = some m → Reachable o multiplier gm p m
  | initializeFrom {m m'} (y : List Nat) : Reachable o multiplier gm p m → p.Labeling y →
      Movemaker.initializeFrom o m y = some m' → Reachable o multiplier gm p m'
  | reset {m m'} : Reachable o multiplier gm p m → (∀ n ∈ p.numLabels, 0 < n) →
      Movemaker.reset o m = some m' → Reachable o multiplier gm p m'
  | valueAfterMove {m m' e} (vars labels : List Nat) : Reachable o multiplier gm p m → vars.Nodup →
      (∀ v ∈ vars, v < p.numLabels.length) → InRange p.numLabels vars labels →
      Movemaker.valueAfterMove o multiplier m vars labels = some (e, m') → Reachable o multiplier gm p m'
  | move {m m' e} (vars labels : List Nat) : Reachable o multiplier gm p m → vars.Nodup →
      (∀ v ∈ vars, v < p.numLabels.length) → InRange p.numLabels vars labels →
      Movemaker.move o multiplier m vars labels = some (e, m') → Reachable o multiplier gm p m'
  | moveOptimally {m m' e} (bop : V → V → Bool) (reevaluate : V → Bool) (vars : List Nat) : Reachable o multiplier gm p m →
      MoveContext o bop reevaluate → vars ≠ [] → vars.Nodup → (∀ v ∈ vars, v < p.numLabels.length) →
      Movemaker.moveOptimally o bop reevaluate m vars = some (e, m') → Reachable o multiplier gm p m'
  | moveOptimallyChanging {m m' e} (bop : V → V → Bool) (reevaluate : V → Bool) (vars : List Nat) :
      Reachable o multiplier gm p m → MoveContext o bop reevaluate → vars ≠ [] → vars.Nodup →
      (∀ v ∈ vars, ∃ n, p.numLabels[v]? = some n ∧ 2 ≤ n) →
      Movemaker.moveOptimallyChanging o bop reevaluate m vars = some (e, m') → Reachable o multiplier gm p m'

theorem Reachable.tracks {o : InvOperation V} {multiplier : Bool} (ho : multiplier = true ∨ o.Laws) {gm : GM V} {p : Problem V}
    (hb : BuiltModel gm p) {m : Movemaker V} (h : Reachable o multiplier gm p m) :
    ∃ x, Movemaker.Tracks o m p x ∧ m.gm = gm := by
  have hs := hb.represents.toStores
  induction h with
  | construct hp e =>
    obtain ⟨m', e', ht, hg⟩ := Movemaker.ofModel_spec o hp hs
    rw [e] at e'; cases e'; exact ⟨_, ht, hg⟩
  | constructFrom y hy e =>
    obtain ⟨m', e', ht, hg⟩ := Movemaker.ofLabels_spec o hs y hy
    rw [e] at e'; cases e'; exact ⟨_, ht, hg⟩
  | initializeFrom y _ hy e ih =>
    obtain ⟨x, ht, hg⟩ := ih
    obtain ⟨m', e', ht', hg'⟩ := Movemaker.initializeFrom_spec ht y hy
    rw [e] at e'; cases e'; exact ⟨_, ht', hg'.trans hg⟩
  | reset _ hp e ih =>
    obtain ⟨x, ht, hg⟩ := ih
    obtain ⟨m', e', ht', hg'⟩ := Movemaker.reset_spec hp ht
    rw [e] at e'; cases e'; exact ⟨_, ht', hg'.trans hg⟩
  | valueAfterMove vars labels _ hn hr hd e ih =>
    obtain ⟨x, ht, hg⟩ := ih
    have e' := Movemaker.valueAfterMove_spec multiplier ho ht vars labels hn hr hd
    rw [e] at e'; cases e'; exact ⟨_, ht, hg⟩
  | move vars labels _ hn hr hd e ih =>
    obtain ⟨x, ht, hg⟩ := ih
    obtain ⟨m', e', ht', hg'⟩ := Movemaker.move_spec multiplier ho ht vars labels hn hr hd
    rw [e] at e'; cases e'; exact ⟨_, ht', hg'.trans hg⟩
  | moveOptimally bop reev vars _ hc h0 hn hr e ih =>
    obtain ⟨x, ht, hg⟩ := ih
    obtain ⟨y, m', e', ht', hg', _⟩ := Movemaker.moveOptimally_spec hc.comm bop hc.order hc.reflects reev hc.replace ht vars h0 hn hr
    rw [e] at e'; cases e'; exact ⟨_, ht', hg'.trans hg⟩
  | moveOptimallyChanging bop reev vars _ hc h0 hn hr e ih =>
    obtain ⟨x, ht, hg⟩ := ih
    obtain ⟨y, m', e', ht', hg', _⟩ :=
      Movemaker.moveOptimallyChanging_spec hc.comm bop hc.order hc.reflects reev hc.replace ht vars h0 hn hr
    rw [e] at e'; cases e'; exact ⟨_, ht', hg'.trans hg⟩

/-- C14: whatever calls have been made, `state()` is a labeling of the model and `value()` is what `evaluate` returns for
it, which is the mathematical value of the labeling. -/
theorem C14_value (o : InvOperation V) (multiplier : Bool) (ho : multiplier = true ∨ o.Laws) (gm : GM V) (p : Problem V)
    (hb : BuiltModel gm p) (m : Movemaker V) (h : Reachable o multiplier gm p m) :
    p.Labeling m.state ∧ gm.evaluate o.toOperation m.state = some m.value ∧ m.value = p.energy o.toOperation m.state := by
  obtain ⟨x, ht, hg⟩ := h.tracks ho hb
  rw [ht.state]
  exact ⟨ht.labeling, by rw [← hg, evaluate_spec _ ht.stores _ ht.labeling, Movemaker.value, ht.energy], ht.energy⟩

/-- C14: `move` never fails, returns the new `value()` and moves to the given labeling. -/
theorem C14_move (o : InvOperation V) (multiplier : Bool) (ho : multiplier = true ∨ o.Laws) (gm : GM V) (p : Problem V)
    (hb : BuiltModel gm p) (m : Movemaker V) (h : Reachable o multiplier gm p m) (vars labels : List Nat)
    (hn : vars.Nodup) (hr : ∀ v ∈ vars, v < p.numLabels.length) (hl : InRange p.numLabels vars labels) :
    ∃ m', m.move o multiplier vars labels = some (m'.value, m') ∧ Relabelled m.state vars labels m'.state := by
  obtain ⟨x, ht, _⟩ := h.tracks ho hb
  obtain ⟨m', e, ht', _⟩ := Movemaker.move_spec multiplier ho ht vars labels hn hr hl
  refine ⟨m', by rw [e, Movemaker.value, ht'.energy], ?_⟩
  rw [ht.state, ht'.state]
  exact fill_relabelled x vars labels hn (fun v hv => by rw [ht.labeling.1]; exact hr v hv)

/-- C14: the constructors, `initialize` and `reset` never fail and set the labeling. -/
theorem C14_construct (o : InvOperation V) (multiplier : Bool) (ho : multiplier = true ∨ o.Laws) (gm : GM V) (p : Problem V)
    (hb : BuiltModel gm p) :
    ((∀ n ∈ p.numLabels, 0 < n) → ∃ m, Movemaker.ofModel o gm = some m ∧ m.state = List.replicate p.numLabels.length 0) ∧
    (∀ y, p.Labeling y → ∃ m, Movemaker.ofLabels o gm y = some m ∧ m.state = y) ∧
    (∀ m y, Reachable o multiplier gm p m → p.Labeling y → ∃ m', m.initializeFrom o y = some m' ∧ m'.state = y) ∧
    (∀ m, Reachable o multiplier gm p m → (∀ n ∈ p.numLabels, 0 < n) →
      ∃ m', m.reset o = some m' ∧ m'.state = List.replicate p.numLabels.length 0) := by
  have hs := hb.represents.toStores
  refine ⟨?_, ?_, ?_, ?_⟩
  · intro hp
    obtain ⟨m', e', ht, _⟩ := Movemaker.ofModel_spec o hp hs
    exact ⟨m', e', ht.state⟩
  · intro y hy
    obtain ⟨m', e', ht, _⟩ := Movemaker.ofLabels_spec o hs y hy
    exact ⟨m', e', ht.state⟩
  · intro m y h hy
    obtain ⟨x, ht, _⟩ := h.tracks ho hb
    obtain ⟨m', e', ht', _⟩ := Movemaker.initializeFrom_spec ht y hy
    exact ⟨m', e', ht'.state⟩
  · intro m h hp
    obtain ⟨x, ht, _⟩ := h.tracks ho hb
    obtain ⟨m', e', ht', _⟩ := Movemaker.reset_spec hp ht
    exact ⟨m', e', ht'.state⟩

/-- C15: `valueAfterMove` returns the value of the relabelled labeling and leaves the whole object as it was. -/
theorem C15_valueAfterMove (o : InvOperation V) (multiplier : Bool) (ho : multiplier = true ∨ o.Laws) (gm : GM V)
    (p : Problem V) (hb : BuiltModel gm p) (m : Movemaker V) (h : Reachable o multiplier gm p m) (vars labels : List Nat)
    (hn : vars.Nodup) (hr : ∀ v ∈ vars, v < p.numLabels.length) (hl : InRange p.numLabels vars labels)
    (y : List Nat) (hy : Relabelled m.state vars labels y) :
    m.valueAfterMove o multiplier vars labels = some (p.energy o.toOperation y, m) := by
  obtain ⟨x, ht, _⟩ := h.tracks ho hb
  rw [Movemaker.valueAfterMove_spec multiplier ho ht vars labels hn hr hl]
  rw [ht.state] at hy
  rw [relabelled_unique hl.1 hy (fill_relabelled x vars labels hn (fun v hv => by rw [ht.labeling.1]; exact hr v hv))]

/-- C16: `moveOptimally` never fails and returns the new `value()`; only the listed variables may change; no labeling that
differs from the old one only on these variables is better than the new one. -/
theorem C16_moveOptimally (o : InvOperation V) (multiplier : Bool) (ho : multiplier = true ∨ o.Laws) (gm : GM V)
    (p : Problem V) (hb : BuiltModel gm p) (m : Movemaker V) (h : Reachable o multiplier gm p m)
    (bop : V → V → Bool) (reevaluate : V → Bool) (hc : MoveContext o bop reevaluate)
    (vars : List Nat) (h0 : vars ≠ []) (hn : vars.Nodup) (hr : ∀ v ∈ vars, v < p.numLabels.length) :
    ∃ m', m.moveOptimally o bop reevaluate vars = some (m'.value, m') ∧ AgreeOutside vars m.state m'.state ∧
      (∀ z, p.Labeling z → AgreeOutside vars m.state z → bop (p.energy o.toOperation z) m'.value = false) ∧
      (Preserves o.toOperation bop → m'.state = m.state ∨ bop m'.value m.value = true) := by
  obtain ⟨x, ht, _⟩ := h.tracks ho hb
  obtain ⟨y, m', e1, e2, _, e4, e5, e6⟩ :=
    Movemaker.moveOptimally_spec hc.comm bop hc.order hc.reflects reevaluate hc.replace ht vars h0 hn hr
  rw [ht.state]
  refine ⟨m', by rw [e1, Movemaker.value, e2.energy], by rw [e2.state]; exact e4, ?_, ?_⟩
  · intro z hz hza
    rw [Movemaker.value, e2.energy]
    exact e5 z hz hza
  · intro hp
    rw [e2.state, Movemaker.value, Movemaker.value, e2.energy, ht.energy]
    exact e6 hp

/-- C16: with a comparison compatible with the operation, the labeling is unchanged if no relabelling of the listed
variables is strictly better. -/
theorem C16_unchanged (o : InvOperation V) (multiplier : Bool) (ho : multiplier = true ∨ o.Laws) (gm : GM V)
    (p : Problem V) (hb : BuiltModel gm p) (m : Movemaker V) (h : Reachable o multiplier gm p m)
    (bop : V → V → Bool) (reevaluate : V → Bool) (hc : MoveContext o bop reevaluate) (hp : Preserves o.toOperation bop)
    (vars : List Nat) (h0 : vars ≠ []) (hn : vars.Nodup) (hr : ∀ v ∈ vars, v < p.numLabels.length)
    (hbest : ∀ z, p.Labeling z → AgreeOutside vars m.state z → bop (p.energy o.toOperation z) m.value = false) :
    ∃ m', m.moveOptimally o bop reevaluate vars = some (m'.value, m') ∧ m'.state = m.state ∧ m'.value = m.value := by
  obtain ⟨m', e1, e2, _, e4⟩ := C16_moveOptimally o multiplier ho gm p hb m h bop reevaluate hc vars h0 hn hr
  have hreach : Reachable o multiplier gm p m' := .moveOptimally bop reevaluate vars h hc h0 hn hr e1
  obtain ⟨v1, _, v3⟩ := C14_value o multiplier ho gm p hb m' hreach
  obtain ⟨_, _, w3⟩ := C14_value o multiplier ho gm p hb m h
  rcases e4 hp with e | e
  · exact ⟨m', e1, e, by rw [v3, w3, e]⟩
  · have := hbest _ v1 e2
    rw [← v3] at this
    rw [this] at e; simp at e

/-- C17 (partial): if every listed variable has at least two labels, `moveOptimallyWithAllLabelsChanging` behaves: it keeps
`value()` consistent (C14 and C15 apply to the resulting object), either leaves the labeling or changes all listed
variables, and no labeling that changes all of them (and no other) is better.
Missing: the case of a listed variable with exactly one label, where the code fails (`C17_violated`). -/
theorem C17_allLabelsChanging_partial (o : InvOperation V) (multiplier : Bool) (ho : multiplier = true ∨ o.Laws) (gm : GM V)
    (p : Problem V) (hb : BuiltModel gm p) (m : Movemaker V) (h : Reachable o multiplier gm p m)
    (bop : V → V → Bool) (reevaluate : V → Bool) (hc : MoveContext o bop reevaluate)
    (vars : List Nat) (h0 : vars ≠ []) (hn : vars.Nodup) (hr : ∀ v ∈ vars, ∃ n, p.numLabels[v]? = some n ∧ 2 ≤ n) :
    ∃ m', m.moveOptimallyChanging o bop reevaluate vars = some (m'.value, m') ∧ Reachable o multiplier gm p m' ∧
      m'.value = p.energy o.toOperation m'.state ∧ AgreeOutside vars m.state m'.state ∧
      (m'.state = m.state ∨ ∀ v ∈ vars, m'.state[v]? ≠ m.state[v]?) ∧
      (∀ z, p.Labeling z → AgreeOutside vars m.state z → (∀ v ∈ vars, z[v]? ≠ m.state[v]?) →
        bop (p.energy o.toOperation z) m'.value = false) := by
  obtain ⟨x, ht, _⟩ := h.tracks ho hb
  obtain ⟨y, m', e1, e2, _, e4, e5, e6, _⟩ :=
    Movemaker.moveOptimallyChanging_spec hc.comm bop hc.order hc.reflects reevaluate hc.replace ht vars h0 hn hr
  have hreach := Reachable.moveOptimallyChanging bop reevaluate vars h hc h0 hn hr e1
  rw [ht.state]
  refine ⟨m', by rw [e1, Movemaker.value, e2.energy], hreach, by rw [e2.state]; exact e2.energy, by rw [e2.state]; exact e4,
    by rw [e2.state]; exact e5, ?_⟩
  intro z hz hza hch
  rw [Movemaker.value, e2.energy]
  exact e6 z hz hza hch

/-! ### Concrete contexts -/

/-- Integers with addition and subtraction. -/
def intAddSub : InvOperation Int := { intAdd with iop := fun a b => a - b }

theorem intAddSub_laws : intAddSub.Laws :=
  { intAdd_comm with cancel := fun a b => Int.add_sub_cancel a b }

/-- Minimizer on integers with Adder. -/
theorem minAdd_context : MoveContext intAddSub (fun a b => decide (a < b)) (fun _ => false) where
  comm := intAdd_comm
  order := ⟨by simp, by intro a b c; simp; omega⟩
  reflects := by intro r a b; simp [intAddSub, intAdd]
  replace := fun r i _ _ _ => intAddSub_laws.cancel r i

/-- Natural numbers with multiplication and division (values of a probabilistic model up to scale). -/
def natMulDiv : InvOperation Nat := { neutral := 1, op := (· * ·), iop := (· / ·) }

/-- Maximizer with Multiplier, nonnegative values: the re-evaluation at energy 0 makes the update valid. -/
theorem maxMul_context : MoveContext natMulDiv (fun a b => decide (b < a)) (fun e => decide (e = 0)) where
  comm := ⟨Nat.mul_comm, Nat.mul_assoc, Nat.one_mul⟩
  order := ⟨by simp, by intro a b c; simp; omega⟩
  reflects := by
    intro r a b h
    have h' : r * b < r * a := of_decide_eq_true h
    simpa using Nat.lt_of_mul_lt_mul_left h'
  replace := by
    intro r i b _ h
    have h' : r ≠ 0 ∧ i ≠ 0 := by simpa [natMulDiv] using h
    exact Nat.mul_div_cancel r (by omega)

/-- There is a built model (`demoOps`: 2, 3, 2 labels), a Movemaker for it that is reachable after a moveOptimally, and
the theorems apply to it with two variables. -/
example : ∃ gm m, BuiltModel gm (builtAfter demoOps).problem ∧
    Reachable intAddSub false gm (builtAfter demoOps).problem m ∧
    (∀ v ∈ [2, 0], ∃ n, (builtAfter demoOps).problem.numLabels[v]? = some n ∧ 2 ≤ n) := by
  obtain ⟨gm, hb⟩ := builtModel_exists demoOps_valid
  have hnl : (builtAfter demoOps).problem.numLabels = [2, 3, 2] := by decide
  have hpos : ∀ n ∈ (builtAfter demoOps).problem.numLabels, 0 < n := by rw [hnl]; decide
  obtain ⟨m, e, _⟩ := (C14_construct intAddSub false (Or.inr intAddSub_laws) gm _ hb).1 hpos
  have hr : Reachable intAddSub false gm (builtAfter demoOps).problem m := .construct hpos e
  obtain ⟨m', e', _⟩ := C16_moveOptimally intAddSub false (Or.inr intAddSub_laws) gm _ hb m hr _ _ minAdd_context [2, 0]
    (by simp) (by simp) (by rw [hnl]; decide)
  refine ⟨gm, m', hb, .moveOptimally _ _ [2, 0] hr minAdd_context (by simp) (by simp) (by rw [hnl]; decide) e', ?_⟩
  rw [hnl]
  decide

/-! ### C17 fails when a listed variable has a single label -/

/-- Labels 2, 2, 1; one factor on variables 0 and 1 that counts how many of the two labels are 1 (weights 1 and 10). -/
def c17Ops : List (BuildOp Int) :=
  [.addVariable 2, .addVariable 2, .addVariable 1,
   .addFunction 0 ⟨[2, 2], fun c => match c with | [a, b] => (a : Int) + 10 * b | _ => 0⟩, .addFactor 0 [0, 1]]

theorem c17Ops_valid : ValidHistory 1 Built.empty c17Ops := by
  simp [c17Ops, ValidHistory, BuildOp.Valid, BuildOp.apply, Built.empty, restrict]

/-- C17 is violated: after moveOptimallyWithAllLabelsChanging on variables 1 and 2 the labeling is still (0,0,0), but
valueAfterMove for variable 0 with label 1 answers 11, the value of (1,1,0), instead of 1. -/
theorem C17_violated : ∃ (gm : GM Int) (m0 m1 m2 : Movemaker Int), BuiltModel gm (builtAfter c17Ops).problem ∧
    Movemaker.ofModel intAddSub gm = some m0 ∧
    m0.moveOptimallyChanging intAddSub (fun a b => decide (a < b)) (fun _ => false) [1, 2] = some (0, m1) ∧
    m1.state = [0, 0, 0] ∧
    m1.valueAfterMove intAddSub false [0] [1] = some (11, m2) ∧
    (builtAfter c17Ops).problem.energy intAdd [1, 0, 0] = 1 := by
  obtain ⟨c, h1⟩ : ∃ c, (Client.init 1).run (fun _ _ => false) c17Ops = .ok () c := ⟨_, rfl⟩
  refine ⟨c.gm, ?_⟩
  cases h1
  exact ⟨_, _, _, ⟨1, _, c17Ops, _, eqvSound_false, c17Ops_valid, rfl, rfl, rfl⟩, rfl, rfl, rfl, rfl, rfl⟩

end OpenGM
