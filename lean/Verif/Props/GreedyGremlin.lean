import Verif.Lemmas.GreedyGremlin
import Verif.Lemmas.EnergySum
import Verif.Props.ICM
import Mathlib.Tactic.IntervalCases
/-
C81: the greedy gremlin.
-/
namespace OpenGM.Greedy
open Spec
variable {V : Type}

/-- A GreedyGremlin object with the labeling `conf`: constructed for the model, then `infer` any number of times. -/
inductive Reach (o : Operation V) (bop : V → V → Bool) (gm : GM V) : List Nat → Prop
  | start : Reach o bop gm (construct gm)
  | infer {x y : List Nat} (h : Reach o bop gm x) (e : infer o bop gm x = some y) : Reach o bop gm y

theorem infer_spec (o : Operation V) {bop : V → V → Bool} (hb : StrictOrder bop) {gm : GM V} {p : Problem V} (hr : Represents gm p) {x : List Nat}
    (hx : p.Labeling x) (hn : p.numLabels ≠ []) :
    ∃ y comp, infer o bop gm x = some y ∧ p.Labeling y ∧ comp.Nodup ∧ comp[0]? = some 0 ∧ (∀ w, w ∈ comp ↔ LinkedTo p 0 w) ∧ (∀ w ∈ comp, w < p.numLabels.length) ∧
      (∀ i w, comp[i]? = some w → i = 0 ∨ ∃ j u, j < i ∧ comp[j]? = some u ∧ Adjacent p u w) ∧
      GreedyRun o bop p (Seen p) [] (comp ++ List.replicate (p.numLabels.length - comp.length) 0) x y := by
  have hn' : 0 < p.numLabels.length := List.length_pos_iff.mpr hn
  have hs := hr.toStores
  obtain ⟨st, vs, q, e1, e2, e3, e4⟩ := loop_spec o hb hr p.numLabels.length [] [0] _ (init_inv hx hn') (by simp)
  rw [List.nil_append] at e2 e3
  have hwl : st.waiting.length = p.numLabels.length := by
    rw [e2.queue.waiting, List.length_append, List.length_replicate]
    have := nodup_length_le e2.queue.nodup e2.queue.range
    omega
  have hvs : vs = st.waiting := by
    obtain ⟨rest, h⟩ := e2.rest
    have : rest = [] := by
      have := congrArg List.length h
      rw [List.length_append] at this
      exact List.length_eq_zero_iff.mp (by omega)
    rw [h, this, List.append_nil]
  have hmem : ∀ w, w ∈ q ↔ LinkedTo p 0 w := by
    intro w
    constructor
    · exact e2.linked w
    · apply linked_mem e2.zero_mem
      intro u hu w ha
      exact e2.closed u (by rw [hvs, e2.queue.waiting]; simp [hu]) w ha
  refine ⟨st.conf, q, ?_, e2.labeling, e2.queue.nodup, e2.zero, hmem, e2.queue.range, e2.ordered, ?_⟩
  · unfold infer
    have hnv : gm.numberOfVariables = p.numLabels.length := by unfold GM.numberOfVariables; rw [hs.labels]
    rw [hnv, setAt_of_lt 0 (by simpa using hn'), setAt_of_lt true (by simpa using hn')]
    simp only [List.length_set, List.length_replicate]
    rw [e1]
    rfl
  · rw [← e2.queue.waiting, ← hvs]; exact e4

theorem reach_labeling (o : Operation V) {bop : V → V → Bool} (hb : StrictOrder bop) {gm : GM V} {p : Problem V} (hr : Represents gm p)
    (hpos : ∀ n ∈ p.numLabels, 0 < n) (hn : p.numLabels ≠ []) {x : List Nat} (h : Reach o bop gm x) : p.Labeling x := by
  induction h with
  | start =>
    have hnv : gm.numberOfVariables = p.numLabels.length := by unfold GM.numberOfVariables; rw [hr.toStores.labels]
    refine ⟨by simp [construct, hnv], ?_⟩
    intro v l m hl hm
    unfold construct at hl
    have := List.eq_of_mem_replicate (List.mem_of_getElem? hl)
    subst this
    exact hpos m (List.mem_of_getElem? hm)
  | infer h e ih =>
    obtain ⟨y, comp, e1, e2, _⟩ := infer_spec o hb hr ih hn
    rw [e] at e1
    cases e1
    exact e2

theorem run_others {o : Operation V} {bop : V → V → Bool} {p : Problem V} {use : List Nat → Nat → Nat → Prop} [∀ d v, DecidablePred (use d v)]
    {done vs x y : List Nat} (h : GreedyRun o bop p use done vs x y) {w : Nat} (hw : w ∉ vs) : y[w]? = x[w]? := by
  induction h with
  | nil => rfl
  | cons hn hl hbest hkeep h ih =>
    rename_i done vs x y v l n
    rw [ih (fun hc => hw (by simp [hc])), List.getElem?_set_ne]
    intro e; exact hw (by simp [e])

theorem run_last {o : Operation V} {bop : V → V → Bool} {p : Problem V} {use : List Nat → Nat → Nat → Prop} [∀ d v, DecidablePred (use d v)]
    {vs y : List Nat} {v : Nat} : ∀ {done x : List Nat}, GreedyRun o bop p use done (vs ++ [v]) x y →
    ∃ z l n, p.numLabels[v]? = some n ∧ l < n ∧ y = z.set v l ∧
      ∀ k, k < n → bop (partialValue o p (use (done ++ vs) v) z v k) (partialValue o p (use (done ++ vs) v) z v l) = false := by
  induction vs with
  | nil =>
    intro done x h
    cases h with
    | cons hn hl hbest hkeep h =>
      rename_i l n
      cases h
      exact ⟨x, l, n, hn, hl, rfl, by simpa using hbest⟩
  | cons u vs ih =>
    intro done x h
    cases h with
    | cons hn hl hbest hkeep h =>
      obtain ⟨z, l, n, h1, h2, h3, h4⟩ := ih h
      exact ⟨z, l, n, h1, h2, h3, by simpa using h4⟩

/-- C81: `infer` of an object for a model with at least one variable never fails, and `arg` is then a labeling `y`. The run visits the variables of the component of variable 0, each one once, beginning with variable 0, each
other one after one that is adjacent to it; then it visits variable 0 again, until the number of visits is the number of variables. In each visit, the variable gets a label that is best for those of its factors in which all
variables have been visited or are adjacent to one that was visited before (`Seen`), and it keeps its label if none is better. The labels of all other components do not change. -/
theorem C81_infer (o : Operation V) {bop : V → V → Bool} (hb : StrictOrder bop) {gm : GM V} {p : Problem V} (hm : BuiltModel gm p)
    (hpos : ∀ n ∈ p.numLabels, 0 < n) (hn : p.numLabels ≠ []) {x : List Nat} (h : Reach o bop gm x) :
    ∃ y comp, infer o bop gm x = some y ∧ arg y 1 = (y, true) ∧ p.Labeling y ∧
      comp.Nodup ∧ comp[0]? = some 0 ∧ (∀ w, w ∈ comp ↔ LinkedTo p 0 w) ∧
      (∀ i w, comp[i]? = some w → i = 0 ∨ ∃ j u, j < i ∧ comp[j]? = some u ∧ Adjacent p u w) ∧
      GreedyRun o bop p (Seen p) [] (comp ++ List.replicate (p.numLabels.length - comp.length) 0) x y ∧
      ∀ w, ¬ LinkedTo p 0 w → y[w]? = x[w]? := by
  obtain ⟨y, comp, e1, e2, e3, e4, e5, e6, e7, e8⟩ := infer_spec o hb hm.represents (reach_labeling o hb hm.represents hpos hn h) hn
  refine ⟨y, comp, e1, rfl, e2, e3, e4, e5, e7, e8, ?_⟩
  intro w hw
  apply run_others e8
  intro hc
  rcases List.mem_append.mp hc with hc | hc
  · exact hw ((e5 w).mp hc)
  · rw [(List.mem_replicate.mp hc).2] at hw
    exact hw Relation.ReflTransGen.refl

/-- C81: in a connected model, every variable is visited exactly once. -/
theorem C81_connected (o : Operation V) {bop : V → V → Bool} (hb : StrictOrder bop) {gm : GM V} {p : Problem V} (hm : BuiltModel gm p)
    (hpos : ∀ n ∈ p.numLabels, 0 < n) (hn : p.numLabels ≠ []) (hc : ∀ w, w < p.numLabels.length → LinkedTo p 0 w) {x : List Nat} (h : Reach o bop gm x) :
    ∃ y order, infer o bop gm x = some y ∧ order.Perm (List.range p.numLabels.length) ∧ GreedyRun o bop p (Seen p) [] order x y := by
  obtain ⟨y, comp, e1, e2, e3, e4, e5, e6, e7, e8⟩ := infer_spec o hb hm.represents (reach_labeling o hb hm.represents hpos hn h) hn
  have hp : comp.Perm (List.range p.numLabels.length) := by
    rw [List.perm_ext_iff_of_nodup e3 List.nodup_range]
    intro w
    rw [List.mem_range]
    exact ⟨e6 w, fun hw => (e5 w).mpr (hc w hw)⟩
  refine ⟨y, comp, e1, hp, ?_⟩
  have : comp.length = p.numLabels.length := by rw [hp.length_eq, List.length_range]
  rw [this, Nat.sub_self, List.replicate_zero, List.append_nil] at e8
  exact e8

theorem split_energy {o : Operation V} (ho : o.IsCommMonoid) (p : Problem V) (z : List Nat) (v : Nat) (hv : v < z.length) :
    ∃ rest, ∀ k, p.energy o (z.set v k) = o.op rest
      (((p.terms.filter (fun t => decide (v ∈ t.vars))).map (fun t => t.value (z.set v k))).foldl o.op o.neutral) := by
  refine ⟨total o ((p.terms.filter (fun t => !decide (v ∈ t.vars))).map (fun t => t.value z)), ?_⟩
  intro k
  have e1 : (p.terms.filter (fun t => !decide (v ∈ t.vars))).map (fun t => t.value z) =
      (p.terms.filter (fun t => !decide (v ∈ t.vars))).map (fun t => t.value (z.set v k)) := by
    apply List.map_congr_left
    intro t ht
    have hvt : v ∉ t.vars := by simpa using (List.mem_filter.mp ht).2
    unfold Term.value restrict
    congr 1
    apply List.map_congr_left
    intro w hw
    have : v ≠ w := fun e => hvt (e ▸ hw)
    simp [List.getD_eq_getElem?_getD, List.getElem?_set_ne this]
  rw [e1]
  change total o _ = o.op _ (total o _)
  rw [← total_append ho, ← List.map_append]
  apply total_perm ho
  apply List.Perm.map
  have := List.filter_append_perm (fun t : Term V => decide (v ∈ t.vars)) p.terms
  exact this.symm.trans List.perm_append_comm

/-- C81: after `infer`, no other label of the variable that was visited last gives a better labeling. This is variable 0, if the model is not connected. In a model with a single variable, the labeling is optimal. -/
theorem C81_last {o : Operation V} (ho : o.IsCommMonoid) {bop : V → V → Bool} (hb : StrictOrder bop) (hr : Reflects o bop) {gm : GM V} {p : Problem V} (hm : BuiltModel gm p)
    (hpos : ∀ n ∈ p.numLabels, 0 < n) (hn : p.numLabels ≠ []) {x : List Nat} (h : Reach o bop gm x) :
    ∃ y v, infer o bop gm x = some y ∧ v < p.numLabels.length ∧ LocallyOptimal o bop p [v] y ∧
      ((∃ w, w < p.numLabels.length ∧ ¬ LinkedTo p 0 w) → v = 0) ∧
      (p.numLabels.length = 1 → ∀ z, p.Labeling z → bop (p.energy o z) (p.energy o y) = false) := by
  obtain ⟨y, comp, e1, e2, e3, e4, e5, e6, e7, e8⟩ := infer_spec o hb hm.represents (reach_labeling o hb hm.represents hpos hn h) hn
  have hcl : comp.length ≤ p.numLabels.length := nodup_length_le e3 e6
  have hn' : 0 < p.numLabels.length := List.length_pos_iff.mpr hn
  have hc0 : 0 ∈ comp := List.mem_of_getElem? e4
  generalize hord : comp ++ List.replicate (p.numLabels.length - comp.length) 0 = order at e8
  have hol : order.length = p.numLabels.length := by rw [← hord]; simp; omega
  have hone : order ≠ [] := by intro he; rw [he] at hol; simp at hol; omega
  obtain ⟨vs, v, rfl⟩ : ∃ vs v, order = vs ++ [v] := ⟨_, _, (List.dropLast_append_getLast hone).symm⟩
  obtain ⟨z, l, n, h1, h2, h3, h4⟩ := run_last e8
  rw [List.nil_append] at h4
  have hvn : v < p.numLabels.length := (List.getElem?_eq_some_iff.mp h1).1
  have hdisc : (∃ w, w < p.numLabels.length ∧ ¬ LinkedTo p 0 w) → v = 0 ∧ 0 ∈ vs := by
    rintro ⟨w, hw, hwl⟩
    have hlt : comp.length < p.numLabels.length := by
      have hwn : w ∉ comp := fun hc => hwl ((e5 w).mp hc)
      have : (w :: comp).Nodup := List.nodup_cons.mpr ⟨hwn, e3⟩
      have := nodup_length_le (n := p.numLabels.length) this (by intro u hu; rcases List.mem_cons.mp hu with rfl | hu; exacts [hw, e6 u hu])
      rw [List.length_cons] at this; omega
    obtain ⟨m, hm'⟩ : ∃ m, p.numLabels.length - comp.length = m + 1 := ⟨p.numLabels.length - comp.length - 1, by omega⟩
    rw [hm', List.replicate_succ', ← List.append_assoc] at hord
    have h5 := List.append_inj' hord rfl
    refine ⟨by simpa using h5.2.symm, ?_⟩
    rw [← h5.1]
    simp [hc0]
  have hseen : ∀ t ∈ p.terms, v ∈ t.vars → ∀ w ∈ t.vars, Seen p vs v w := by
    intro t ht hv w hw
    by_cases hwv : w = v
    · exact Or.inl hwv
    by_cases hdc : ∃ w, w < p.numLabels.length ∧ ¬ LinkedTo p 0 w
    · obtain ⟨hv0, hvs⟩ := hdisc hdc
      exact Or.inr (Or.inr ⟨0, hvs, t, ht, hv0 ▸ hv, hw⟩)
    · -- every variable is visited
      have hw2 : w ∈ vs ++ [v] := by
        rw [← hord]
        have hvl : LinkedTo p 0 v := by
          by_contra hc
          exact hdc ⟨v, hvn, hc⟩
        have hwl : LinkedTo p 0 w := hvl.tail ⟨t, ht, hv, hw⟩
        simp [(e5 w).mpr hwl]
      rcases List.mem_append.mp hw2 with hw2 | hw2
      · exact Or.inr (Or.inl hw2)
      · exact absurd (List.mem_singleton.mp hw2) hwv
  have hzl : v < z.length := by
    have := e2.1
    rw [h3, List.length_set] at this
    omega
  obtain ⟨rest, hrest⟩ := split_energy ho p z v hzl
  have hpv : ∀ k, p.energy o (z.set v k) = o.op rest (partialValue o p (Seen p vs v) z v k) := by
    intro k
    rw [hrest k]
    unfold partialValue
    have hf : p.terms.filter (fun t => decide (v ∈ t.vars)) = p.terms.filter (fun t => decide (v ∈ t.vars ∧ ∀ w ∈ t.vars, Seen p vs v w)) := by
      apply List.filter_congr
      intro t ht
      by_cases hv : v ∈ t.vars
      · rw [decide_eq_true hv, decide_eq_true ⟨hv, hseen t ht hv⟩]
      · rw [decide_eq_false hv, decide_eq_false (fun hc => hv hc.1)]
    rw [hf]
  have hlo : LocallyOptimal o bop p [v] y := by
    intro x' hx' ha
    have hx2 : ∃ k, k < n ∧ x' = z.set v k := by
      have hvl' : v < x'.length := by rw [hx'.1]; exact hvn
      refine ⟨x'[v], hx'.2 v _ _ (List.getElem?_eq_getElem hvl') h1, ?_⟩
      apply List.ext_getElem?
      intro w
      by_cases hwv : v = w
      · subst hwv
        rw [List.getElem?_set_self hzl, List.getElem?_eq_getElem hvl']
      · rw [ha.2 w (by simpa using Ne.symm hwv), h3, List.getElem?_set_ne hwv, List.getElem?_set_ne hwv]
    obtain ⟨k, hk, rfl⟩ := hx2
    rw [h3, hpv k, hpv l]
    cases hbk : bop (o.op rest (partialValue o p (Seen p vs v) z v k)) (o.op rest (partialValue o p (Seen p vs v) z v l)) with
    | false => rfl
    | true => have := hr _ _ _ hbk; rw [h4 k hk] at this; simp at this
  refine ⟨y, v, e1, hvn, hlo, fun hd => (hdisc hd).1, ?_⟩
  intro h1' z' hz'
  apply hlo z' hz'
  refine ⟨by rw [hz'.1, e2.1], ?_⟩
  intro w hw
  have : w ≠ 0 := by
    intro e
    apply hw
    have : v = 0 := by omega
    simp [e, this]
  rw [List.getElem?_eq_none (by rw [hz'.1]; omega), List.getElem?_eq_none (by rw [e2.1]; omega)]

/-- C81: `infer` on a model without variables writes to the first entry of empty vectors (undefined behaviour). -/
theorem C81_empty_violated (o : Operation V) (bop : V → V → Bool) {gm : GM V} {p : Problem V} (hm : BuiltModel gm p) (hn : p.numLabels = []) (x : List Nat) :
    infer o bop gm x = none := by
  have hnv : gm.numberOfVariables = 0 := by unfold GM.numberOfVariables; rw [hm.represents.toStores.labels, hn]; rfl
  unfold infer
  rw [hnv]
  rfl

/-- Two variables, each with one factor. -/
def apartOps : List (BuildOp Int) :=
  [.addVariable 2, .addVariable 2, .addFunction 0 ⟨[2], fun c => match c with | [0] => 1 | _ => 0⟩, .addFactor 0 [0], .addFactor 0 [1]]

theorem apartOps_valid : ValidHistory 1 Built.empty apartOps := by
  simp [apartOps, ValidHistory, BuildOp.Valid, BuildOp.apply, Built.empty, restrict]

/-- A triangle, with factors of the variables 1 and 2. -/
def triangleOps : List (BuildOp Int) :=
  [.addVariable 2, .addVariable 2, .addVariable 2,
   .addFunction 0 ⟨[2, 2], fun _ => 0⟩, .addFactor 0 [0, 1], .addFactor 0 [0, 2],
   .addFunction 0 ⟨[2, 2], fun c => match c with | [0, 0] => 5 | _ => 0⟩, .addFactor 1 [1, 2],
   .addFunction 0 ⟨[2], fun c => match c with | [0] => 0 | _ => 1⟩, .addFactor 2 [1],
   .addFunction 0 ⟨[2], fun c => match c with | [0] => 1 | _ => 0⟩, .addFactor 3 [2]]

theorem triangleOps_valid : ValidHistory 1 Built.empty triangleOps := by
  simp [triangleOps, ValidHistory, BuildOp.Valid, BuildOp.apply, Built.empty, restrict]

def intAdd : Operation Int := ⟨0, (· + ·)⟩

def intLess (a b : Int) : Bool := decide (a < b)

theorem intLess_strict : StrictOrder intLess := ⟨fun a => by simp [intLess], fun a b c => by simp only [intLess, decide_eq_true_eq]; omega⟩

theorem run_inv {o : Operation V} {bop : V → V → Bool} {p : Problem V} {use : List Nat → Nat → Nat → Prop} [∀ d v, DecidablePred (use d v)]
    {done vs x y : List Nat} {v : Nat} (h : GreedyRun o bop p use done (v :: vs) x y) : ∃ l n, p.numLabels[v]? = some n ∧
      (∀ k, k < n → bop (partialValue o p (use done v) x v k) (partialValue o p (use done v) x v l) = false) ∧
      GreedyRun o bop p use (done ++ [v]) vs (x.set v l) y := by
  cases h with
  | cons hn hl hbest hkeep h => exact ⟨_, _, hn, hbest, h⟩

theorem run_nil {o : Operation V} {bop : V → V → Bool} {p : Problem V} {use : List Nat → Nat → Nat → Prop} [∀ d v, DecidablePred (use d v)]
    {done x y : List Nat} (h : GreedyRun o bop p use done [] x y) : x = y := by
  cases h; rfl

/-- C81 is violated in a model that is not connected: the algorithm stops with label 0 for variable 1, although label 1 is better and depends on no other variable. (Variable 0 is visited twice and variable 1 never.) -/
theorem C81_components_violated : ∃ gm, BuiltModel gm (builtAfter apartOps).problem ∧ infer intAdd intLess gm (construct gm) = some [1, 0] ∧
    (builtAfter apartOps).problem.Labeling [1, 1] ∧
    intLess ((builtAfter apartOps).problem.energy intAdd [1, 1]) ((builtAfter apartOps).problem.energy intAdd [1, 0]) = true := by
  obtain ⟨c, h1⟩ : ∃ c, (Client.init 1).run (fun _ _ => false) apartOps = .ok () c := ⟨_, rfl⟩
  refine ⟨c.gm, ?_⟩
  cases h1
  have hs : EqvSound (V := Int) (fun _ _ => false) := by intro f g h; simp at h
  refine ⟨⟨1, _, apartOps, _, hs, apartOps_valid, rfl, rfl, rfl⟩, by decide +kernel, ⟨rfl, ?_⟩, by decide +kernel⟩
  intro v l n hl hn
  have hnl : (builtAfter apartOps).problem.numLabels = [2, 2] := by decide
  rw [hnl] at hn
  match v with
  | 0 => simp at hl hn; omega
  | 1 => simp at hl hn; omega
  | v + 2 => simp at hl

/-- C81: the documentation says that factors with variables that are not fixed so far are ignored (except for the current variable). This is violated: in the triangle, variable 1 gets a label that depends on the label of variable
2 from before the run, and no order of the variables gives the result in the documented way. The documented algorithm gives a better labeling. -/
theorem C81_fixed_violated : ∃ gm, BuiltModel gm (builtAfter triangleOps).problem ∧ infer intAdd intLess gm (construct gm) = some [0, 1, 1] ∧
    (∀ order, order.Perm [0, 1, 2] → ¬ GreedyRun intAdd intLess (builtAfter triangleOps).problem Fixed [] order (construct gm) [0, 1, 1]) ∧
    GreedyRun intAdd intLess (builtAfter triangleOps).problem Fixed [] [0, 1, 2] (construct gm) [0, 0, 1] ∧
    intLess ((builtAfter triangleOps).problem.energy intAdd [0, 0, 1]) ((builtAfter triangleOps).problem.energy intAdd [0, 1, 1]) = true := by
  obtain ⟨c, h1⟩ : ∃ c, (Client.init 1).run (fun _ _ => false) triangleOps = .ok () c := ⟨_, rfl⟩
  refine ⟨c.gm, ?_⟩
  cases h1
  have hs : EqvSound (V := Int) (fun _ _ => false) := by intro f g h; simp at h
  refine ⟨⟨1, _, triangleOps, _, hs, triangleOps_valid, rfl, rfl, rfl⟩, by decide +kernel, ?_, ?_, by decide +kernel⟩
  · intro order ho h
    replace h : GreedyRun intAdd intLess (builtAfter triangleOps).problem Fixed [] order [0, 0, 0] [0, 1, 1] := h
    have ho' : order ∈ [[0, 1, 2], [1, 0, 2], [2, 1, 0], [1, 2, 0], [2, 0, 1], [0, 2, 1]] := by
      have hl := ho.length_eq
      have hm : ∀ w ∈ order, w < 3 := by
        intro w hw
        have := ho.mem_iff.mp hw
        simp only [List.mem_cons, List.not_mem_nil, or_false] at this
        omega
      match order, hl with
      | [a, b, c], _ =>
        have ha := hm a (by simp)
        have hb := hm b (by simp)
        have hc := hm c (by simp)
        clear hm h
        interval_cases a <;> interval_cases b <;> interval_cases c <;> revert ho <;> decide
    have hnl : (builtAfter triangleOps).problem.numLabels = [2, 2, 2] := by decide
    simp only [List.mem_cons, List.not_mem_nil, or_false] at ho'
    rcases ho' with rfl | rfl | rfl | rfl | rfl | rfl
    all_goals
      obtain ⟨l1, n1, a1, b1, h⟩ := run_inv h
      obtain ⟨l2, n2, a2, b2, h⟩ := run_inv h
      obtain ⟨l3, n3, a3, b3, h⟩ := run_inv h
      have he := run_nil h
      simp at he
      obtain ⟨rfl, rfl, rfl⟩ := he
      simp [hnl] at a1 a2 a3
      subst a1 a2 a3
    · exact absurd (b2 0 (by decide)) (by decide +kernel)
    · exact absurd (b1 0 (by decide)) (by decide +kernel)
    · exact absurd (b2 0 (by decide)) (by decide +kernel)
    · exact absurd (b1 0 (by decide)) (by decide +kernel)
    · exact absurd (b3 0 (by decide)) (by decide +kernel)
    · exact absurd (b3 0 (by decide)) (by decide +kernel)
  · refine .cons (l := 0) (n := 2) rfl (by decide) (by decide +kernel) (Or.inl rfl) ?_
    refine .cons (l := 0) (n := 2) rfl (by decide) (by decide +kernel) (Or.inl rfl) ?_
    refine .cons (l := 1) (n := 2) rfl (by decide) (by decide +kernel) (Or.inr ⟨0, rfl, by decide +kernel⟩) ?_
    exact .nil _ _

/-- The hypotheses hold for the triangle, which is connected, and for the two separate variables, which are not. -/
example : (∃ gm, BuiltModel gm (builtAfter triangleOps).problem ∧ Reach intAdd intLess gm [0, 1, 1] ∧
      (∀ n ∈ (builtAfter triangleOps).problem.numLabels, 0 < n) ∧ (builtAfter triangleOps).problem.numLabels ≠ [] ∧
      ∀ w, w < (builtAfter triangleOps).problem.numLabels.length → LinkedTo (builtAfter triangleOps).problem 0 w) ∧
    StrictOrder intLess ∧ intAdd.IsCommMonoid ∧ Reflects intAdd intLess ∧ ¬ LinkedTo (builtAfter apartOps).problem 0 1 := by
  refine ⟨?_, intLess_strict, ⟨fun a b => by simp [intAdd, Int.add_comm], fun a b c => by simp [intAdd, Int.add_assoc], fun a => by simp [intAdd]⟩,
    fun r a b => by simp [intAdd, intLess], ?_⟩
  · obtain ⟨gm, hb, hi, _⟩ := C81_fixed_violated
    refine ⟨gm, hb, .infer .start hi, by decide, by decide, ?_⟩
    intro w hw
    have hnl : (builtAfter triangleOps).problem.numLabels.length = 3 := by decide
    rw [hnl] at hw
    have ha : ∀ w, w < 3 → Adjacent (builtAfter triangleOps).problem 0 w := by decide +kernel
    exact Relation.ReflTransGen.single (ha w hw)
  · intro h
    have : ∀ w, LinkedTo (builtAfter apartOps).problem 0 w → w = 0 := by
      intro w hw
      induction hw with
      | refl => rfl
      | tail _ ha ih =>
        subst ih
        obtain ⟨t, ht, h0, h1⟩ := ha
        have hvars : (builtAfter apartOps).problem.terms.map (·.vars) = [[0], [1]] := by decide
        have : t.vars ∈ (builtAfter apartOps).problem.terms.map (·.vars) := List.mem_map_of_mem ht
        rw [hvars] at this
        simp only [List.mem_cons, List.not_mem_nil, or_false] at this
        rcases this with e | e <;> rw [e] at h0 h1 <;> simp at h0 h1 <;> exact h1
    exact absurd (this 1 h) (by decide)

end OpenGM.Greedy
