import Verif.Lemmas.Bruteforce
import Verif.Spec.Tuples
import Verif.Props.Movemaker
/-
C20: the class Bruteforce.
-/
namespace OpenGM
open Spec
variable {V : Type}

/-- The Bruteforce objects that a program can have: either constructor, then any number of calls of `reset` and `infer`. -/
inductive BfReachable (o : InvOperation V) (multiplier : Bool) (bop : V → V → Bool) (accOp : V → V → V) (accNeutral : V)
    (gm : GM V) : Bruteforce.Bf V → Prop
  | construct {b} : Bruteforce.construct o accNeutral gm = some b → BfReachable o multiplier bop accOp accNeutral gm b
  | constructParam {b} (default : V) : Bruteforce.constructParam o default gm = some b →
      BfReachable o multiplier bop accOp accNeutral gm b
  | reset {b b'} : BfReachable o multiplier bop accOp accNeutral gm b → Bruteforce.reset o accNeutral b = some b' →
      BfReachable o multiplier bop accOp accNeutral gm b'
  | infer {b b' visited} : BfReachable o multiplier bop accOp accNeutral gm b →
      Bruteforce.infer o multiplier bop accOp accNeutral b = some (b', visited) → BfReachable o multiplier bop accOp accNeutral gm b'

/-- The loop of `infer`, from any tracked state. -/
theorem Bruteforce.infer_spec {o : InvOperation V} {multiplier : Bool} (ho : multiplier = true ∨ o.Laws) {gm : GM V}
    {p : Problem V} (hpos : ∀ n ∈ p.numLabels, 0 < n) (bop : V → V → Bool) (accOp : V → V → V) (accNeutral : V)
    (b : Bruteforce.Bf V) (x : List Nat) (ht : Movemaker.Tracks o b.m p x) (hg : b.m.gm = gm) :
    ∃ m' x', Bruteforce.infer o multiplier bop accOp accNeutral b =
      some (⟨m', ((allTuples p.numLabels).foldl (Bruteforce.bfStep o bop accOp p) (accNeutral, b.states)).2,
        ((allTuples p.numLabels).foldl (Bruteforce.bfStep o bop accOp p) (accNeutral, b.states)).1⟩, allTuples p.numLabels) ∧
      Movemaker.Tracks o m' p x' ∧ m'.gm = gm := by
  have hs := ht.stores
  rw [hg] at hs
  have hn : gm.numberOfVariables = p.numLabels.length := by rw [GM.numberOfVariables, hs.labels]
  obtain ⟨rest, hr⟩ := zeros_head p.numLabels hpos
  obtain ⟨h1, h2⟩ := odo_chain p.numLabels hpos
  have hlen := length_allTuples p.numLabels
  rw [hr] at h1 h2 hlen
  have hmem : ∀ x, x ∈ allTuples p.numLabels ↔ p.Labeling x := fun x => Icm.mem_labelings
  have hfuel : Bruteforce.fuel gm = p.numLabels.prod := by
    have h2 : ∀ l : List Nat, l.foldr (· * ·) 1 = l.prod := by intro l; induction l <;> simp_all
    rw [Bruteforce.fuel, h2, hs.labels]
  obtain ⟨m', x', a1, a2, a3⟩ := Bruteforce.loop_chain multiplier ho bop accOp rest
    (List.replicate p.numLabels.length 0) (Bruteforce.fuel gm)
    { b with energy := accNeutral } _ [] ht
    (by intro c hc; rw [← hr] at hc; exact (hmem c).mp hc) h1 h2 (by rw [hfuel]; simp at hlen; omega)
  simp only at a3
  rw [← hr] at a1
  refine ⟨m', x', ?_, a2, a3.trans hg⟩
  unfold Bruteforce.infer
  simp only [hg, hn]
  exact a1

theorem BfReachable.tracks {o : InvOperation V} {multiplier : Bool} (ho : multiplier = true ∨ o.Laws) {bop : V → V → Bool}
    {accOp : V → V → V} {accNeutral : V} {gm : GM V} {p : Problem V} (hb : BuiltModel gm p) (hpos : ∀ n ∈ p.numLabels, 0 < n)
    {b : Bruteforce.Bf V} (h : BfReachable o multiplier bop accOp accNeutral gm b) :
    ∃ x, Movemaker.Tracks o b.m p x ∧ b.m.gm = gm := by
  induction h with
  | construct e =>
    obtain ⟨m, e', ht, hg⟩ := Movemaker.ofModel_spec o hpos hb.represents.toStores
    unfold Bruteforce.construct at e
    rw [e'] at e
    cases e
    exact ⟨_, ht, hg⟩
  | constructParam d e =>
    obtain ⟨m, e', ht, hg⟩ := Movemaker.ofModel_spec o hpos hb.represents.toStores
    unfold Bruteforce.constructParam at e
    rw [e'] at e
    cases e
    exact ⟨_, ht, hg⟩
  | reset _ e ih =>
    obtain ⟨x, ht, hg⟩ := ih
    obtain ⟨m', e', ht', hg'⟩ := Movemaker.reset_spec hpos ht
    unfold Bruteforce.reset at e
    rw [e'] at e
    cases e
    exact ⟨_, ht', hg'.trans hg⟩
  | infer _ e ih =>
    obtain ⟨x, ht, hg⟩ := ih
    obtain ⟨m', x', a1, a2, a3⟩ := Bruteforce.infer_spec ho hpos bop accOp accNeutral _ x ht hg
    rw [e] at a1
    cases a1
    exact ⟨_, a2, a3⟩

/-- C20: for every accumulator that keeps the better of two values and every Bruteforce object (of either constructor, after
any number of calls of `reset` and `infer`), `infer` terminates; its visitor is called at every labeling exactly once (in
the order of `allTuples`, first variable fastest); no labeling is better than `value()`; and if some labeling is better
than the accumulator's neutral element then `arg()` is a labeling whose value is `value()`, as `evaluate` computes it. -/
theorem C20_bruteforce (o : InvOperation V) (multiplier : Bool) (ho : multiplier = true ∨ o.Laws) (gm : GM V) (p : Problem V)
    (hb : BuiltModel gm p) (hpos : ∀ n ∈ p.numLabels, 0 < n) (bop : V → V → Bool) (hso : StrictOrder bop)
    (accOp : V → V → V) (hacc : ∀ a b, accOp a b = if bop a b then a else b) (accNeutral : V)
    (b : Bruteforce.Bf V) (h : BfReachable o multiplier bop accOp accNeutral gm b) :
    ∃ b' visited, Bruteforce.infer o multiplier bop accOp accNeutral b = some (b', visited) ∧
      visited = allTuples p.numLabels ∧ visited.Nodup ∧ (∀ x, x ∈ visited ↔ p.Labeling x) ∧
      (∀ x, p.Labeling x → bop (p.energy o.toOperation x) (Bruteforce.value b') = false) ∧
      ((∃ x, p.Labeling x ∧ bop (p.energy o.toOperation x) accNeutral = true) →
        p.Labeling (Bruteforce.arg b') ∧ gm.evaluate o.toOperation (Bruteforce.arg b') = some (Bruteforce.value b') ∧
        p.energy o.toOperation (Bruteforce.arg b') = Bruteforce.value b') := by
  obtain ⟨x, ht, hg⟩ := h.tracks ho hb hpos
  have hmem : ∀ x, x ∈ allTuples p.numLabels ↔ p.Labeling x := fun x => Icm.mem_labelings
  obtain ⟨m', x', a1, a2, a3⟩ := Bruteforce.infer_spec ho hpos bop accOp accNeutral b x ht hg
  obtain ⟨b1, b2⟩ := Bruteforce.bf_best (o := o) (p := p) hso accOp hacc accNeutral (allTuples p.numLabels)
    (accNeutral, b.states) [] (by simp) (Or.inl rfl)
  simp only [List.nil_append] at b1 b2
  generalize List.foldl (Bruteforce.bfStep o bop accOp p) (accNeutral, b.states) (allTuples p.numLabels) = S at a1 b1 b2
  refine ⟨⟨m', S.2, S.1⟩, allTuples p.numLabels, a1, rfl, nodup_allTuples _, hmem, ?_, ?_⟩
  · intro x hx
    exact b1 x ((hmem x).mpr hx)
  · rintro ⟨x, hx, hxb⟩
    rcases b2 with b2 | ⟨_, b3, b4⟩
    · have := b1 x ((hmem x).mpr hx)
      rw [b2, hxb] at this
      simp at this
    · have hl := (hmem _).mp b3
      refine ⟨hl, ?_, b4.symm⟩
      exact (evaluate_spec _ hb.represents.toStores _ hl).trans (congrArg some b4.symm)

/-- The constructors and `reset` never fail. -/
theorem C20_construct (o : InvOperation V) (multiplier : Bool) (ho : multiplier = true ∨ o.Laws) (gm : GM V) (p : Problem V)
    (hb : BuiltModel gm p) (hpos : ∀ n ∈ p.numLabels, 0 < n) (accNeutral default : V) :
    (∃ b, Bruteforce.construct o accNeutral gm = some b) ∧ (∃ b, Bruteforce.constructParam o default gm = some b) ∧
    ∀ bop accOp b, BfReachable o multiplier bop accOp accNeutral gm b →
      ∃ b', Bruteforce.reset o accNeutral b = some b' ∧ Bruteforce.arg b' = (Bruteforce.arg b).map (fun _ => 0) := by
  obtain ⟨m, e', ht, hg⟩ := Movemaker.ofModel_spec o hpos hb.represents.toStores
  refine ⟨⟨_, by rw [Bruteforce.construct, e']⟩, ⟨_, by rw [Bruteforce.constructParam, e']⟩, ?_⟩
  intro bop accOp b h
  obtain ⟨x, ht, hg⟩ := h.tracks ho hb hpos
  obtain ⟨m', e', ht', hg'⟩ := Movemaker.reset_spec hpos ht
  exact ⟨_, by rw [Bruteforce.reset, e'], rfl⟩

/-- Minimizer: `op(in, out)` sets `out` to `out < in ? out : in` (operations/minimizer.hxx 31-34), which is the better one. -/
theorem minimizer_acc (a b : Int) : (if b < a then b else a) = if decide (a < b) = true then a else b := by
  by_cases h : b < a
  · rw [if_pos h, if_neg (by simp; omega)]
  · rw [if_neg h]
    by_cases h2 : a < b
    · simp [h2]
    · simp [h2]; omega

/-- The hypotheses are met: a built model with 2, 3, 2 labels, sums of integers, and a neutral element that some
labeling beats. -/
example : ∃ gm, BuiltModel gm (builtAfter demoOps).problem ∧ (∀ n ∈ (builtAfter demoOps).problem.numLabels, 0 < n) ∧
    intAddSub.Laws ∧ StrictOrder (fun a b : Int => decide (a < b)) ∧
    ∃ x, (builtAfter demoOps).problem.Labeling x ∧
      decide ((builtAfter demoOps).problem.energy intAddSub.toOperation x < 1000000) = true := by
  obtain ⟨gm, hb⟩ := builtModel_exists demoOps_valid
  have hnl : (builtAfter demoOps).problem.numLabels = [2, 3, 2] := by decide
  refine ⟨gm, hb, by rw [hnl]; decide, intAddSub_laws, minAdd_context.order, [1, 2, 0], ?_, by decide⟩
  rw [← Icm.mem_labelings, hnl]
  decide

end OpenGM
