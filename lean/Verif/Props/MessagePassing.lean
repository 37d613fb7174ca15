import Verif.Lemmas.BPMarginal
import Verif.Lemmas.Built
import Verif.Lemmas.FactorGraph
import Verif.Props.Acyclic
import Verif.Props.DynamicProgramming
import Mathlib.Algebra.Order.Field.Rat
import Mathlib.Tactic.FieldSimp
import Mathlib.Tactic.Ring
import Mathlib.Tactic.Linarith
import Mathlib.Tactic.Positivity
/-
C66: belief propagation on acyclic models computes the marginals.
-/
namespace OpenGM
open Spec MessagePassing
variable {V : Type}

/-- The objects that a client can have: constructed for `gm` (`acyclic`: what the parameter says about cycles, `norm`: whether messages are normalised), then any calls
of `infer` with any visitors, and of `reset`. -/
inductive BPReachable (r : Rules V) (gm : GM V) (acyclic : Option Bool) (norm : Bool) : MP V → Prop
  | construct {s} : construct r gm acyclic norm = some s → BPReachable r gm acyclic norm s
  | reset {s s'} : BPReachable r gm acyclic norm s → reset r s = some s' → BPReachable r gm acyclic norm s'
  | infer {s s' visit} : BPReachable r gm acyclic norm s → infer r visit s = some (some s') → BPReachable r gm acyclic norm s'

section
variable {r : Rules V} {gm : GM V} {p : Problem V} {acyclic : Option Bool} {norm : Bool}

theorem bp_infer_ok (hr : Represents gm p) {GV GF : Nat → Nat → List V → Prop} (hC : Closed r gm norm (adjOf gm) (BP.scopeOf p.scopes) GV GF) {s : MP V}
    (hI : Inv r gm (adjOf gm) (BP.scopeOf p.scopes) s) (hn : s.useNormalization = norm) (visit : Nat → Bool) :
    ∃ q, infer r visit s = some q ∧ (q = none → s.isAcyclic = some false ∨ (s.isAcyclic = none ∧ ¬ (bipartite p.scopes).IsAcyclic)) ∧
      ∀ s', q = some s' → Inv r gm (adjOf gm) (BP.scopeOf p.scopes) s' ∧ s'.useNormalization = norm ∧ s'.isAcyclic = some true ∧
        ((∀ k, visit k = false) → ∃ sV sF cV cF, J r gm norm (adjOf gm) (BP.scopeOf p.scopes) GV GF s' sV sF cV cF [] []) := by
  have hN := net_of_represents hr
  unfold infer
  cases ha : s.isAcyclic with
  | some b =>
    cases b with
    | true =>
      obtain ⟨s', h1, h2, h3, h4, h5⟩ := inferAcyclic_ok hN hC hI hn visit
      refine ⟨some s', by simp only; rw [h1]; rfl, by simp, ?_⟩
      intro s'' e
      cases e
      exact ⟨h2, h3, h4.trans ha, h5⟩
    | false => exact ⟨none, rfl, by simp, by simp⟩
  | none =>
    obtain ⟨hex, hs, _⟩ := factorGraph_exact hr
    obtain ⟨b, h1, h2⟩ := FG.C12_isAcyclic gm.factorGraph hex
    rw [hI.model, h1]
    rw [hs] at h2
    cases b with
    | true =>
      obtain ⟨s', h1, h2, h3, h4, h5⟩ := inferAcyclic_ok hN hC (s := { s with isAcyclic := some true })
        ⟨hI.model, hI.varLen, hI.facLen, hI.varBuf, hI.facBuf, hI.varOut, hI.facOut⟩ hn visit
      rw [hI.model] at h1
      refine ⟨some s', by simp only; rw [h1]; rfl, by simp, ?_⟩
      intro s'' e
      cases e
      exact ⟨h2, h3, h4, h5⟩
    | false =>
      refine ⟨none, rfl, fun _ => Or.inr ⟨rfl, fun h => ?_⟩, by simp⟩
      have := h2.mpr h
      simp at this

theorem bp_reachable (hr : Represents gm p) (hpos : ∀ n ∈ p.numLabels, 0 < n) {s : MP V} (h : BPReachable r gm acyclic norm s) :
    Inv r gm (adjOf gm) (BP.scopeOf p.scopes) s ∧ s.useNormalization = norm ∧ (s.isAcyclic = acyclic ∨ s.isAcyclic = some true) := by
  have hN := net_of_represents hr
  have hpos' : ∀ n ∈ gm.numLabels, 0 < n := by rw [hr.labels]; exact hpos
  induction h with
  | construct h =>
    obtain ⟨s', e, h1, h2, h3⟩ := construct_ok (r := r) hN hpos' acyclic norm
    rw [e] at h
    cases h
    exact ⟨h1, h3, Or.inl h2⟩
  | reset _ h ih =>
    obtain ⟨s', e, h1, h2, h3⟩ := reset_ok hN hpos' ih.1
    rw [e] at h
    cases h
    exact ⟨h1, h3.trans ih.2.1, by rw [h2]; exact ih.2.2⟩
  | infer _ h ih =>
    obtain ⟨q, e, _, h1⟩ := bp_infer_ok hr (closed_len (r := r) hr norm) ih.1 ih.2.1 _
    rw [e] at h
    cases h
    obtain ⟨g1, g2, g3, _⟩ := h1 _ rfl
    exact ⟨g1, g2, Or.inr g3⟩

end

/-- C66. For every built model whose variables have labels, also one with cycles, whatever the parameters, the values, and the calls and visitors so far: construction, `reset`, `infer` (as far as it
is modelled: with `inferAcyclic`), `marginal`, and `factorMarginal` of a factor with variables never read or write outside the arrays, and end; marginals have an entry for each label. -/
theorem C66_defined (r : Rules V) (gm : GM V) (p : Problem V) (hb : BuiltModel gm p) (hpos : ∀ n ∈ p.numLabels, 0 < n) (acyclic : Option Bool) (norm : Bool) :
    (∃ s, construct r gm acyclic norm = some s) ∧
    ∀ s, BPReachable r gm acyclic norm s →
      (∃ s', reset r s = some s') ∧
      (∀ visit, ∃ q, infer r visit s = some q ∧ (q = none → acyclic = some false ∨ (acyclic = none ∧ ¬ (bipartite p.scopes).IsAcyclic))) ∧
      (∀ v, v < p.numLabels.length → ∃ out, marginal r s v = some out ∧ out.length = p.numLabels.getD v 0) ∧
      (∀ f t, p.terms[f]? = some t → t.vars ≠ [] → ∃ out, factorMarginal r s f = some out ∧ out.length = (allTuples (restrict p.numLabels t.vars)).length) := by
  have hr := hb.represents
  have hN := net_of_represents hr
  have hpos' : ∀ n ∈ gm.numLabels, 0 < n := by rw [hr.labels]; exact hpos
  have hnl : ∀ (l : List V), (MessagePassing.normalize r l).length = l.length := by
    intro l
    unfold MessagePassing.normalize
    simp only
    split <;> simp
  obtain ⟨s, h1, _⟩ := construct_ok (r := r) hN hpos' acyclic norm
  refine ⟨⟨s, h1⟩, fun s hs => ?_⟩
  obtain ⟨hI, hn, ha⟩ := bp_reachable hr hpos hs
  refine ⟨?_, ?_, ?_, ?_⟩
  · obtain ⟨s', h, _⟩ := reset_ok hN hpos' hI
    exact ⟨s', h⟩
  · intro visit
    obtain ⟨q, h1, h2, _⟩ := bp_infer_ok hr (closed_len (r := r) hr norm) hI hn visit
    refine ⟨q, h1, fun hq => ?_⟩
    rcases ha with ha | ha
    · rw [← ha]; exact h2 hq
    · rcases h2 hq with h | ⟨h, _⟩ <;> rw [ha] at h <;> simp at h
  · intro v hv
    have hv' : v < gm.numLabels.length := by rw [hr.labels]; exact hv
    obtain ⟨ins, g1, g2⟩ := hI.varLen v hv'
    have hl : ∀ b ∈ ins, b.current.length = p.numLabels.getD v 0 := by
      intro b hb
      obtain ⟨j, hj, e⟩ := List.getElem_of_mem hb
      obtain ⟨b1, b2⟩ := hI.varBuf v j b (by simp [getBuffer, g1, List.getElem?_eq_getElem hj, e])
      rw [hr.labels] at b1 b2
      unfold Buffer.current
      split <;> assumption
    obtain ⟨out, e1, e2⟩ := operate_len (o := r.o) hl
    refine ⟨if s.useNormalization then MessagePassing.normalize r out else out, ?_, ?_⟩
    · unfold marginal
      rw [g1, hI.model, hr.labels, List.getElem?_eq_getElem hv]
      simp only
      have : p.numLabels[v] = p.numLabels.getD v 0 := by simp [List.getD, hv]
      rw [this, e1]
      rfl
    · split
      · rw [hnl, e2]
      · exact e2
  · intro f t ht hne
    have hfl : f < gm.factors.length := by rw [hr.factors.length_eq]; exact (List.getElem?_eq_some_iff.mp ht).1
    have hrec := List.getElem?_eq_getElem hfl
    obtain ⟨t', ht', hm⟩ := factor_matches hr hrec
    rw [ht] at ht'
    cases ht'
    obtain ⟨fn, f1, f2, f3⟩ := hm.fn
    have hsc := scopeOf_term ht
    obtain ⟨ins, g1, g2⟩ := hI.facLen f hfl
    have hval : ∀ c, ∃ b, InShape (restrict p.numLabels t.vars) c → opMessages r.o (ins.map Buffer.current) c (t.table c) = some b := by
      intro c
      by_cases hc : InShape (restrict p.numLabels t.vars) c
      · obtain ⟨l1, l2⟩ := inShape_get hc
        have hlen : (ins.map Buffer.current).length = c.length := by rw [List.length_map, g2, hsc, l1]
        obtain ⟨b, hb⟩ := opMessages_len (o := r.o) (a := t.table c) (ms := ins.map Buffer.current) (ls := c) (by
          rw [List.forall₂_iff_get]
          refine ⟨hlen, fun j h1 h2 => ?_⟩
          simp only [List.get_eq_getElem, List.getElem_map]
          have hj : j < t.vars.length := by rw [← l1]; exact h2
          have hji : j < ins.length := by simpa using h1
          obtain ⟨b1, b2, _⟩ := hI.facBuf f j t.vars[j] ins[j] (by rw [hsc]; exact List.getElem?_eq_getElem hj) (by simp [getBuffer, g1, List.getElem?_eq_getElem hji])
          have := l2 j _ _ (List.getElem?_eq_getElem hj) (List.getElem?_eq_getElem h2)
          rw [hr.labels] at b1 b2
          unfold Buffer.current
          split
          · rw [b1]; exact this
          · rw [b2]; exact this)
        exact ⟨b, fun _ => hb⟩
      · exact ⟨t.table c, fun h => absurd h hc⟩
    choose value hvalue using hval
    have hop := operateAll_eq (o := r.o) (call := gm.callFactor gm.factors[f]) (ms := ins.map Buffer.current) (value := value) (ts := allTuples fn.shape) (by
      intro q hq
      rw [mem_allTuples, f2, hr.labels] at hq
      exact ⟨_, DP.callFactor_at hr.toStores hm hq hne, hvalue q hq⟩)
    have hsh : fn.shape ≠ [] := by rw [f2, restrict, Ne, List.map_eq_nil_iff]; exact hne
    refine ⟨if s.useNormalization then MessagePassing.normalize r ((allTuples fn.shape).map value) else (allTuples fn.shape).map value, ?_, ?_⟩
    · unfold factorMarginal
      rw [g1, hI.model, hrec]
      simp only
      rw [f1]
      simp only
      rw [if_neg hsh, hop]
      rfl
    · have : (allTuples fn.shape).length = (allTuples (restrict p.numLabels t.vars)).length := by rw [f2, hr.labels]
      split
      · rw [hnl, List.length_map, this]
      · rw [List.length_map, this]

/-- The models of the theorems: built, labels for each variable, no cycle; the values of the factors are in a set `P` on which the operation and the accumulation are a semiring; the parameter does not
deny that the model is acyclic; and messages are only normalised if values can be divided. -/
structure BPSuitable (r : Rules V) (P : V → Prop) (gm : GM V) (p : Problem V) (acyclic : Option Bool) (norm : Bool) : Prop where
  built : BuiltModel gm p
  positive : ∀ n ∈ p.numLabels, 0 < n
  forest : (bipartite p.scopes).IsAcyclic
  laws : SumProduct r.o r.accOp r.accNeutral P
  values : p.Values P
  claim : acyclic ≠ some false
  divides : norm = true → Division r.o r.iop r.skip P

theorem BPSuitable.range {r : Rules V} {P : V → Prop} {gm : GM V} {p : Problem V} {acyclic : Option Bool} {norm : Bool} (h : BPSuitable r P gm p acyclic norm) :
    ∀ t ∈ p.terms, ∀ v ∈ t.vars, v < p.numLabels.length := by
  intro t ht v hv
  have hr := h.built.represents
  obtain ⟨f, hf⟩ := List.mem_iff_getElem?.mp ht
  have hfl : f < gm.factors.length := by rw [hr.factors.length_eq]; exact (List.getElem?_eq_some_iff.mp hf).1
  obtain ⟨t', ht', hm⟩ := factor_matches hr (List.getElem?_eq_getElem hfl)
  rw [hf] at ht'
  cases ht'
  rw [← hr.labels]
  exact hm.range v hv

/-- What `marginal` and `factorMarginal` promise: the marginals of the variables `vs` at the labels `ts`, up to a common value `c`. Without normalisation `c` is neutral if all variables and factors
of the model are connected with `a`. `c` times what the returned values accumulate to is the objective accumulated over all labelings. With normalisation, the returned values accumulate to the neutral
element of the operation, so that `c` is the objective accumulated over all labelings; unless what they accumulate to is not divided by. -/
def BPAnswer (r : Rules V) (P : V → Prop) (norm : Bool) (p : Problem V) (a : Nat ⊕ Nat) (vs : List Nat) (ts : List (List Nat)) (out : List V) : Prop :=
  ∃ c, P c ∧ (norm = false → p.Connected a → c = r.o.neutral) ∧ p.MarginalsOver r.o r.accOp r.accNeutral vs ts c out ∧
    p.partition r.o r.accOp r.accNeutral = r.o.op c (accumulate r.accOp r.accNeutral out) ∧
    (norm = true → (accumulate r.accOp r.accNeutral out = r.o.neutral ∧ c = p.partition r.o r.accOp r.accNeutral) ∨ r.skip (accumulate r.accOp r.accNeutral out) = true)

theorem bp_answer {r : Rules V} {P : V → Prop} {norm : Bool} {gm : GM V} {p : Problem V} {acyclic : Option Bool} (h : BPSuitable r P gm p acyclic norm) {a : Nat ⊕ Nat} {vs : List Nat}
    {ts : List (List Nat)} {out : List V} (hpr : Proportional r P norm p a vs ts out) (hn : vs.Nodup) (hvs : ∀ v ∈ vs, v < p.numLabels.length)
    (hts : ∀ t, t ∈ ts ↔ InShape (restrict p.numLabels vs) t) (hnd : ts.Nodup) : BPAnswer r P norm p a vs ts out := by
  obtain ⟨c, pc, h1, h2, h3⟩ := hpr.partition h.laws h.values h.range h.positive hn hvs hts hnd
  refine ⟨c, pc, h1, h2, h3, fun hn => ?_⟩
  rcases hpr.total hn with ht | ht
  · refine Or.inl ⟨ht, ?_⟩
    rw [h3, ht, h.laws.monoid.comm, h.laws.monoid.neutral_left]
  · exact Or.inr ht

/-- C66. In every suitable model, whatever the object has done before: an `infer` that no visitor stops ends, and afterwards `marginal` of each variable and `factorMarginal` of each factor
with variables return the marginals of the objective (`BPAnswer`). -/
theorem C66_marginals_partial (r : Rules V) (P : V → Prop) (gm : GM V) (p : Problem V) (acyclic : Option Bool) (norm : Bool) (h : BPSuitable r P gm p acyclic norm)
    (s : MP V) (hs : BPReachable r gm acyclic norm s) (visit : Nat → Bool) (hv : ∀ k, visit k = false) :
    ∃ s', infer r visit s = some (some s') ∧
      (∀ v, v < p.numLabels.length → ∃ out, marginal r s' v = some out ∧ BPAnswer r P norm p (.inl v) [v] ((List.range (p.numLabels.getD v 0)).map (fun l => [l])) out) ∧
      (∀ f t, p.terms[f]? = some t → t.vars ≠ [] → ∃ out, factorMarginal r s' f = some out ∧ BPAnswer r P norm p (.inr f) t.vars (allTuples (restrict p.numLabels t.vars)) out) := by
  have hr := h.built.represents
  have hN := net_of_represents hr
  obtain ⟨hI, hn, ha⟩ := bp_reachable hr h.positive hs
  obtain ⟨q, h1, h2, h3⟩ := bp_infer_ok hr (closed_exact (norm := norm) hr h.values h.laws h.divides h.positive h.forest) hI hn visit
  cases q with
  | none =>
    exfalso
    rcases h2 rfl with h' | ⟨h', h''⟩
    · rcases ha with ha | ha
      · exact h.claim (ha ▸ h')
      · rw [ha] at h'; simp at h'
    · exact h'' h.forest
  | some s' =>
    obtain ⟨g1, g2, g3, g4⟩ := h3 s' rfl
    obtain ⟨sV, sF, cV, cF, hJ⟩ := g4 hv
    refine ⟨s', h1, fun v hv => ?_, fun f t ht hne => ?_⟩
    · obtain ⟨out, e1, e2⟩ := marginal_exact hr h.values h.laws h.divides h.positive h.forest h.range hJ hv
      refine ⟨out, e1, bp_answer h e2 (by simp) (by simpa using hv) ?_ ?_⟩
      · intro t
        simp only [List.mem_map, List.mem_range, restrict, List.map_cons, List.map_nil]
        constructor
        · rintro ⟨l, hl, rfl⟩
          exact ⟨hl, trivial⟩
        · intro ht
          rcases t with _ | ⟨l, _ | ⟨l', t⟩⟩ <;> simp [InShape] at ht
          exact ⟨l, ht, rfl⟩
      · exact List.nodup_range.map (fun a b e => by simpa using e)
    · obtain ⟨out, e1, e2⟩ := factorMarginal_exact hr h.values h.laws h.divides h.positive h.forest h.range hJ ht hne
      refine ⟨out, e1, bp_answer h e2 ?_ (h.range t (List.mem_of_getElem? ht)) (fun t => mem_allTuples _ _) (nodup_allTuples _)⟩
      rw [← scopeOf_term ht]
      exact hN.nodupF f

/-! ### Instances -/

/-- Minimizer and Adder, with infinity. -/
def minSum : Rules (Option Int) where
  o := extAdd
  iop v x := match v, x with | some v, some x => some (x - v) | _, _ => none
  accOp a b := if extLt a b then a else b
  accNeutral := none
  skip _ := false

theorem minSum_acc (a b : Int) : minSum.accOp (some a) (some b) = some (min a b) := by
  simp only [minSum, extLt, decide_eq_true_eq]
  split
  · rw [min_eq_left (by omega)]
  · rw [min_eq_right (by omega)]

theorem minSum_laws : SumProduct minSum.o minSum.accOp minSum.accNeutral (fun a => a.isSome) where
  monoid := extAdd_comm
  value_neutral := rfl
  value_op := by rintro (_ | a) (_ | b) <;> simp [minSum, extAdd]
  value_acc := by rintro (_ | a) (_ | b) <;> simp [minSum_acc]
  acc_comm := by rintro (_ | a) (_ | b) <;> simp [minSum_acc, min_comm]
  acc_assoc := by rintro (_ | a) (_ | b) (_ | c) <;> simp [minSum_acc, min_assoc]
  acc_zero := by rintro (_ | a) <;> simp [minSum, extLt]
  distrib := by
    have : ∀ a b : Int, minSum.o.op (some a) (some b) = some (a + b) := fun _ _ => rfl
    rintro (_ | a) (_ | b) (_ | c) <;> simp [minSum_acc, this, min_add_add_left]

theorem minSum_divides : Division minSum.o minSum.iop minSum.skip (fun a => a.isSome) where
  unit := by
    rintro (_ | v) hv _
    · simp at hv
    · refine ⟨some (-v), some v, rfl, rfl, by simp [minSum, extAdd], ?_⟩
      rintro (_ | x) hx
      · simp at hx
      · simp [minSum, extAdd]; omega
  self := by
    rintro (_ | v) hv _
    · simp at hv
    · simp [minSum, extAdd]

/-- Integrator and Multiplier on rational numbers. -/
def sumProd : Rules ℚ where
  o := ⟨1, (· * ·)⟩
  iop v x := x / v
  accOp a b := a + b
  accNeutral := 0
  skip v := decide (v ≤ 1 / 100000)

theorem sumProd_laws : SumProduct sumProd.o sumProd.accOp sumProd.accNeutral (fun a => 0 ≤ a) where
  monoid := ⟨fun a b => mul_comm a b, fun a b c => mul_assoc a b c, fun a => one_mul a⟩
  value_neutral := by simp [sumProd]
  value_op := fun ha hb => mul_nonneg ha hb
  value_acc := fun ha hb => add_nonneg ha hb
  acc_comm := fun _ _ => add_comm _ _
  acc_assoc := fun _ _ _ => add_assoc _ _ _
  acc_zero := fun _ => add_zero _
  distrib := fun _ _ _ => mul_add _ _ _

theorem sumProd_divides : Division sumProd.o sumProd.iop sumProd.skip (fun a => 0 ≤ a) where
  unit := by
    intro v _ hs
    have hv : 0 < v := by
      have : ¬ v ≤ 1 / 100000 := by simpa [sumProd] using hs
      exact lt_trans (by norm_num) (not_le.mp this)
    refine ⟨1 / v, v, by have := hv.le; exact div_nonneg zero_le_one this, hv.le, ?_, ?_⟩
    · show 1 / v * v = 1
      field_simp
    · intro x _
      show x / v = 1 / v * x
      field_simp
  self := by
    intro v _ hs
    have hv : 0 < v := by
      have : ¬ v ≤ 1 / 100000 := by simpa [sumProd] using hs
      exact lt_trans (by norm_num) (not_le.mp this)
    show v / v = 1
    field_simp

/-- A chain of three variables with a factor of three variables at its end, and a constant. -/
def bpOps : List (BuildOp ℚ) :=
  [.addVariable 2, .addVariable 3, .addVariable 2, .addVariable 2,
   .addFunction 0 ⟨[3], fun c => match c with | [a] => 3 - a | _ => 1⟩, .addFactor 0 [1],
   .addFunction 0 ⟨[2, 3], fun c => match c with | [a, b] => if a = b then 1 else 2 | _ => 1⟩, .addFactor 1 [0, 1],
   .addFunction 0 ⟨[3, 2, 2], fun c => match c with | [a, b, d] => if a = b then 5 else 1 + d | _ => 1⟩, .addFactor 2 [1, 2, 3],
   .addFunction 0 ⟨[], fun _ => 1 / 2⟩, .addFactor 3 []]

theorem bpOps_valid : ValidHistory 1 Built.empty bpOps := by
  simp [bpOps, ValidHistory, BuildOp.Valid, BuildOp.apply, Built.empty, restrict]

/-- What `isAcyclic` says is right. -/
theorem bp_forest {gm : GM V} {p : Problem V} (hb : BuiltModel gm p) (h : gm.factorGraph.isAcyclic = some true) : (bipartite p.scopes).IsAcyclic := by
  obtain ⟨hex, hs, _⟩ := factorGraph_exact hb.represents
  obtain ⟨b, h1, h2⟩ := FG.C12_isAcyclic gm.factorGraph hex
  rw [hs] at h2
  rw [h] at h1
  cases h1
  exact h2.mp rfl

/-- The hypotheses of C66 are met by a model with a factor of three variables and a constant, with and without normalisation, if the parameter says nothing about cycles or that there are none. -/
theorem bpOps_suitable (acyclic : Option Bool) (ha : acyclic ≠ some false) (norm : Bool) :
    ∃ gm, BPSuitable sumProd (fun a => 0 ≤ a) gm (builtAfter bpOps).problem acyclic norm := by
  obtain ⟨c, h1⟩ : ∃ c, (Client.init 1).run (fun _ _ => false) bpOps = .ok () c := ⟨_, rfl⟩
  refine ⟨c.gm, ?_⟩
  cases h1
  have hs : EqvSound (V := ℚ) (fun _ _ => false) := by intro f g h; simp at h
  have hb : BuiltModel _ (builtAfter bpOps).problem := ⟨1, _, bpOps, _, hs, bpOps_valid, rfl, rfl, rfl⟩
  refine ⟨hb, by decide, bp_forest hb rfl, sumProd_laws, ?_, ha, fun _ => sumProd_divides⟩
  intro t ht c hc
  simp [builtAfter, bpOps, Built.problem, BuildOp.apply, Built.empty] at ht
  rcases ht with rfl | rfl | rfl | rfl
  · rcases c with _ | ⟨a, _ | ⟨b, c⟩⟩ <;> simp [restrict, InShape, builtAfter, bpOps, Built.problem, BuildOp.apply, Built.empty] at hc ⊢
    have : (a : ℚ) ≤ 3 := by exact_mod_cast hc.le
    linarith
  · rcases c with _ | ⟨a, _ | ⟨b, _ | ⟨b', c⟩⟩⟩ <;> simp
    split <;> norm_num
  · rcases c with _ | ⟨a, _ | ⟨b, _ | ⟨d, _ | ⟨d', c⟩⟩⟩⟩ <;> simp
    split
    · norm_num
    · positivity
  · simp

/-- The hypotheses of C66 are also met for Minimizer and Adder. -/
theorem dpOps_bpSuitable (norm : Bool) : ∃ gm, BPSuitable minSum (fun a => a.isSome) gm (builtAfter dpOps).problem none norm := by
  obtain ⟨c, h1⟩ : ∃ c, (Client.init 1).run (fun _ _ => false) dpOps = .ok () c := ⟨_, rfl⟩
  refine ⟨c.gm, ?_⟩
  cases h1
  have hs : EqvSound (V := Option Int) (fun _ _ => false) := by intro f g h; simp at h
  have hb : BuiltModel _ (builtAfter dpOps).problem := ⟨1, _, dpOps, _, hs, dpOps_valid, rfl, rfl, rfl⟩
  refine ⟨hb, by decide, bp_forest hb rfl, minSum_laws, ?_, by simp, fun _ => minSum_divides⟩
  intro t ht c hc
  simp [builtAfter, dpOps, Built.problem, BuildOp.apply, Built.empty] at ht
  rcases ht with rfl | rfl | rfl | rfl
  · rcases c with _ | ⟨a, _ | ⟨b, c⟩⟩ <;> simp
  · rcases c with _ | ⟨a, _ | ⟨b, _ | ⟨b', c⟩⟩⟩ <;> simp
  · rcases c with _ | ⟨a, _ | ⟨b, _ | ⟨b', c⟩⟩⟩ <;> simp
  · rcases c with _ | ⟨a, _ | ⟨b, c⟩⟩ <;> simp

/-- Run `infer` without a visitor. -/
def bpInfer (r : Rules V) (s : MP V) : Option (MP V) := (infer r (fun _ => false) s).join

/-- The marginals of the model of `bpOps`, computed. The constant is not part of them. -/
example : ∃ c, (Client.init 1).run (fun _ _ => false) bpOps = .ok () c ∧
    ((construct sumProd c.gm none false).bind (bpInfer sumProd)).bind (fun s => marginal sumProd s 3) = some [98, 121] ∧
    ((builtAfter bpOps).problem.marginal sumProd.o sumProd.accOp sumProd.accNeutral [3] [0] = 98 / 2) := by
  refine ⟨_, rfl, ?_, ?_⟩ <;> decide +kernel

/-! ### Violations -/

/-- One variable with small values. -/
def bpSmall : List (BuildOp ℚ) := [.addVariable 2, .addFunction 0 ⟨[2], fun _ => 1 / 1000000⟩, .addFactor 0 [0]]

/-- C66: normalised marginals need not add up to 1, even if they are not 0: if they add up to 0.00001 or less, they are not normalised. -/
theorem C66_violated_normalization : ∃ gm s, BPSuitable sumProd (fun a => 0 ≤ a) gm (builtAfter bpSmall).problem none true ∧
    construct sumProd gm none true = some s ∧ (bpInfer sumProd s).bind (fun s => marginal sumProd s 0) = some [1 / 1000000, 1 / 1000000] := by
  obtain ⟨c, h1⟩ : ∃ c, (Client.init 1).run (fun _ _ => false) bpSmall = .ok () c := ⟨_, rfl⟩
  refine ⟨c.gm, ?_⟩
  cases h1
  have hs : EqvSound (V := ℚ) (fun _ _ => false) := by intro f g h; simp at h
  have hb : BuiltModel _ (builtAfter bpSmall).problem := ⟨1, _, bpSmall, _, hs, by
    simp [bpSmall, ValidHistory, BuildOp.Valid, BuildOp.apply, Built.empty, restrict], rfl, rfl, rfl⟩
  refine ⟨_, ⟨hb, by decide, bp_forest hb rfl, sumProd_laws, ?_, by simp, fun _ => sumProd_divides⟩, rfl, by decide +kernel⟩
  intro t ht c hc
  simp [builtAfter, bpSmall, Built.problem, BuildOp.apply, Built.empty] at ht
  subst ht
  simp

/-- C66: `reset` does not set the messages to the neutral element: they keep the values of the last but one `infer`, so that after two calls of `infer` and `reset` the marginals are not those of a
new object. (A further `infer` is not affected: `C66_marginals_partial`.) -/
theorem C66_violated_reset : ∃ gm s s', BuiltModel gm (builtAfter bpSmall).problem ∧ construct sumProd gm none false = some s ∧
    ((bpInfer sumProd s).bind (bpInfer sumProd)).bind (reset sumProd) = some s' ∧ marginal sumProd s 0 = some [1, 1] ∧ marginal sumProd s' 0 = some [1 / 1000000, 1 / 1000000] := by
  obtain ⟨c, h1⟩ : ∃ c, (Client.init 1).run (fun _ _ => false) bpSmall = .ok () c := ⟨_, rfl⟩
  refine ⟨c.gm, ?_⟩
  cases h1
  have hs : EqvSound (V := ℚ) (fun _ _ => false) := by intro f g h; simp at h
  have hb : BuiltModel _ (builtAfter bpSmall).problem := ⟨1, _, bpSmall, _, hs, by
    simp [bpSmall, ValidHistory, BuildOp.Valid, BuildOp.apply, Built.empty, restrict], rfl, rfl, rfl⟩
  exact ⟨_, _, hb, rfl, rfl, by decide +kernel, by decide +kernel⟩

end OpenGM
