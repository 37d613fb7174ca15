import Verif.Lemmas.HigherOrderElim
/-
Lemmas on HigherOrderEnergy: the reduction of negative terms to a quadratic function.
-/
namespace OpenGM.Hoe
open Spec (monomial polynomial quadraticForm AgreeBelow)
variable {R : Type} [CommRing R] [LinearOrder R] [IsStrictOrderedRing R]

def qval (q : QuadraticRep R) (x : Nat → Bool) : R := quadraticForm q.unary q.pairwise x

/-- All nodes exist. -/
structure QValid (q : QuadraticRep R) : Prop where
  unary : ∀ t ∈ q.unary, t.1 < q.nodes
  pairwise : ∀ t ∈ q.pairwise, t.1 < q.nodes ∧ t.2.1 < q.nodes

theorem QValid.agree {q : QuadraticRep R} (hq : QValid q) {n : Nat} (hn : q.nodes ≤ n) {x z : Nat → Bool} (h : AgreeBelow n x z) : qval q z = qval q x := by
  unfold qval quadraticForm
  congr 1
  · congr 1
    apply List.map_congr_left
    intro t ht
    rw [h t.1 (lt_of_lt_of_le (hq.unary t ht) hn)]
  · congr 1
    apply List.map_congr_left
    intro t ht
    rw [h t.1 (lt_of_lt_of_le (hq.pairwise t ht).1 hn), h t.2.1 (lt_of_lt_of_le (hq.pairwise t ht).2 hn)]

theorem mono_agree {n : Nat} {x z : Nat → Bool} (h : AgreeBelow n x z) (c : R) (vs : List Nat) (hv : ∀ v ∈ vs, v < n) : monomial z c vs = monomial x c vs := by
  have : vs.all z = vs.all x := by
    rw [Bool.eq_iff_iff, List.all_eq_true, List.all_eq_true]
    constructor
    · intro a v hm; rw [← h v (hv v hm)]; exact a v hm
    · intro a v hm; rw [h v (hv v hm)]; exact a v hm
  unfold monomial
  rw [this]

/-- Terms with the value `e` (a function of the first `n` variables) and `edges` edges were added, with new nodes. -/
structure Good (n : Nat) (q q' : QuadraticRep R) (e : (Nat → Bool) → R) (edges : Int) : Prop where
  valid : QValid q'
  nodes : q.nodes ≤ q'.nodes
  maxEdge : q'.maxEdgeNum = q.maxEdgeNum
  edges : (q'.pairwise.length : Int) = q.pairwise.length + edges
  lower : ∀ x, qval q x + e x ≤ qval q' x
  attained : ∀ x, ∃ z, AgreeBelow q.nodes x z ∧ qval q' z = qval q x + e x
  dep : ∀ x z, AgreeBelow n x z → e z = e x

theorem Good.refl (n : Nat) {q : QuadraticRep R} (hq : QValid q) : Good n q q (fun _ => 0) 0 :=
  ⟨hq, le_refl _, rfl, by simp, fun _ => by simp, fun x => ⟨x, fun _ _ => rfl, by simp⟩, fun _ _ _ => rfl⟩

theorem Good.trans {n : Nat} {q q' q'' : QuadraticRep R} {e e' : (Nat → Bool) → R} {k k' : Int} (hn : n ≤ q.nodes) (h : Good n q q' e k) (h' : Good n q' q'' e' k') :
    Good n q q'' (fun x => e x + e' x) (k + k') := by
  refine ⟨h'.valid, le_trans h.nodes h'.nodes, by rw [h'.maxEdge, h.maxEdge], by rw [h'.edges, h.edges]; ring, ?_, ?_, ?_⟩
  · intro x
    have := h.lower x; have := h'.lower x
    linarith
  · intro x
    obtain ⟨z, hz, ez⟩ := h.attained x
    obtain ⟨z', hz', ez'⟩ := h'.attained z
    refine ⟨z', fun i hi => ?_, ?_⟩
    · rw [hz' i (lt_of_lt_of_le hi h.nodes), hz i hi]
    · rw [ez', ez, h'.dep x z (fun i hi => hz i (lt_of_lt_of_le hi hn))]
      ring
  · intro x z hxz
    simp only [h.dep x z hxz, h'.dep x z hxz]

theorem Good.congr {n : Nat} {q q' : QuadraticRep R} {e e' : (Nat → Bool) → R} {k k' : Int} (h : Good n q q' e k) (he : ∀ x, e x = e' x) (hk : k = k') : Good n q q' e' k' := by
  have : e = e' := funext he
  subst this; subst hk; exact h

theorem addUnary_good {n : Nat} {q : QuadraticRep R} (hq : QValid q) (v : Nat) (hv : v < n) (hn : n ≤ q.nodes) (c : R) :
    ∃ q', q.addUnary v 0 c = some q' ∧ Good n q q' (fun x => monomial x c [v]) 0 ∧ q'.nodes = q.nodes := by
  have hv' : v < q.nodes := lt_of_lt_of_le hv hn
  refine ⟨{ q with unary := q.unary ++ [(v, (0 : R), c)] }, by unfold QuadraticRep.addUnary; rw [if_pos hv'], ?_, rfl⟩
  have hval : ∀ x, qval { q with unary := q.unary ++ [(v, (0 : R), c)] } x = qval q x + monomial x c [v] := by
    intro x
    simp only [qval, quadraticForm, List.map_append, List.map_cons, List.map_nil, List.sum_append, List.sum_cons, List.sum_nil, monomial]
    cases hx : x v <;> simp [hx] <;> ring
  refine ⟨⟨?_, hq.pairwise⟩, le_refl _, rfl, by simp, fun x => by rw [hval], fun x => ⟨x, fun _ _ => rfl, hval x⟩, fun x z h => mono_agree h c [v] (by simpa using hv)⟩
  intro t ht
  rcases List.mem_append.1 ht with e | e
  · exact hq.unary t e
  · rw [List.mem_singleton] at e; rw [e]; exact hv'

theorem addPairwise_val (q : QuadraticRep R) (a b : Nat) (c : R) (x : Nat → Bool) :
    qval { q with pairwise := q.pairwise ++ [(a, b, (0 : R), (0 : R), (0 : R), c)] } x = qval q x + monomial x c [a, b] := by
  simp only [qval, quadraticForm, List.map_append, List.map_cons, List.map_nil, List.sum_append, List.sum_cons, List.sum_nil, monomial]
  cases hx : x a <;> cases hy : x b <;> simp [hx, hy] <;> ring

/-- The edges to a node: the value is the coefficient times the number of true variables. -/
theorem edgesTo_spec (c : R) (w : Nat) : ∀ (vs : List Nat) (q : QuadraticRep R), QValid q → w < q.nodes → (∀ v ∈ vs, v < q.nodes) →
    ∃ q', edgesTo c w vs q = some q' ∧ QValid q' ∧ q'.nodes = q.nodes ∧ q'.maxEdgeNum = q.maxEdgeNum ∧ q'.pairwise.length = q.pairwise.length + vs.length ∧
      ∀ x, qval q' x = qval q x + (if x w then c * ((vs.countP x : Nat) : R) else 0)
  | [], q, hq, hw, hv => ⟨q, rfl, hq, rfl, rfl, by simp, fun x => by simp⟩
  | v :: vs, q, hq, hw, hv => by
    have h1 : v < q.nodes ∧ w < q.nodes := ⟨hv v (by simp), hw⟩
    have hq1 : QValid { q with pairwise := q.pairwise ++ [(v, w, (0 : R), (0 : R), (0 : R), c)] } := by
      refine ⟨hq.unary, ?_⟩
      intro t ht
      rcases List.mem_append.1 ht with e | e
      · exact hq.pairwise t e
      · rw [List.mem_singleton] at e; rw [e]; exact h1
    obtain ⟨q', a1, a2, a3, a4, a5, a6⟩ := edgesTo_spec c w vs _ hq1 hw (fun u hu => hv u (by simp [hu]))
    refine ⟨q', ?_, a2, a3, a4, ?_, ?_⟩
    · unfold edgesTo QuadraticRep.addPairwise
      rw [if_pos h1]; exact a1
    · rw [a5]; simp; omega
    · intro x
      rw [a6, addPairwise_val]
      unfold monomial
      rw [List.countP_cons]
      cases hx : x v <;> cases hy : x w <;> simp [hx, hy]
      ring

theorem countP_all (x : Nat → Bool) (vs : List Nat) : (vs.all x = true → vs.countP x = vs.length) ∧ (¬ vs.all x = true → vs.countP x + 1 ≤ vs.length) := by
  constructor
  · intro h
    rw [List.countP_eq_length]
    exact List.all_eq_true.1 h
  · intro h
    have h1 := List.countP_le_length (p := x) (l := vs)
    by_contra hcon
    have : vs.countP x = vs.length := by omega
    rw [List.countP_eq_length] at this
    exact h (List.all_eq_true.2 this)

/-- One term: at least its value, which is attained with the right value of the new node. -/
theorem reduceTerm_spec {n : Nat} {q : QuadraticRep R} (hq : QValid q) (hn : n ≤ q.nodes) (t : HTerm R) (hl : 2 ≤ t.vars.length) (hv : ∀ v ∈ t.vars, v < n) (hs : t.vars.length = 2 ∨ t.coeff ≤ 0) :
    ∃ q', reduceTerm t q = some q' ∧ Good n q q' (fun x => termVal x t) (if t.vars.length = 2 then 1 else t.vars.length) := by
  by_cases h2 : t.vars.length = 2
  · obtain ⟨a, b, hab⟩ : ∃ a b, t.vars = [a, b] := by
      match hm : t.vars, h2 with
      | [a, b], _ => exact ⟨a, b, rfl⟩
    have ha : a < n := hv a (by rw [hab]; simp)
    have hb : b < n := hv b (by rw [hab]; simp)
    have h1 : a < q.nodes ∧ b < q.nodes := ⟨by omega, by omega⟩
    refine ⟨{ q with pairwise := q.pairwise ++ [(a, b, (0 : R), (0 : R), (0 : R), t.coeff)] }, ?_, ?_⟩
    · unfold reduceTerm QuadraticRep.addPairwise
      rw [if_pos h2]
      simp only [hab]
      rw [if_pos h1]
    · have hval : ∀ x, qval { q with pairwise := q.pairwise ++ [(a, b, (0 : R), (0 : R), (0 : R), t.coeff)] } x = qval q x + termVal x t := by
        intro x; rw [addPairwise_val, termVal, hab]
      refine ⟨⟨hq.unary, ?_⟩, le_refl _, rfl, by simp [h2], fun x => by rw [hval], fun x => ⟨x, fun _ _ => rfl, hval x⟩, fun x z h => mono_agree h _ _ hv⟩
      intro u hu
      rcases List.mem_append.1 hu with e | e
      · exact hq.pairwise u e
      · rw [List.mem_singleton] at e; rw [e]; exact h1
  · have hneg : t.coeff ≤ 0 := hs.resolve_left h2
    have hq0 : QValid { q with nodes := q.nodes + 1 } := ⟨fun u hu => Nat.lt_succ_of_lt (hq.unary u hu), fun u hu => ⟨Nat.lt_succ_of_lt (hq.pairwise u hu).1, Nat.lt_succ_of_lt (hq.pairwise u hu).2⟩⟩
    obtain ⟨q1, a1, a2, a3, a4, a5, a6⟩ := edgesTo_spec t.coeff q.nodes t.vars { q with nodes := q.nodes + 1 } hq0 (by simp) (fun v hv' => by have := hv v hv'; simp only []; omega)
    have hw1 : q.nodes < q1.nodes := by rw [a3]; simp
    obtain ⟨q2, b1, b2, b3⟩ := addUnary_good a2 q.nodes hw1 (le_refl _) (t.coeff * (1 - (t.vars.length : R)))
    have hval : ∀ x, qval q2 x = qval q x + (if x q.nodes then t.coeff * ((t.vars.countP x : Nat) : R) + t.coeff * (1 - (t.vars.length : R)) else 0) := by
      intro x
      have e1 : qval q2 x = qval q1 x + monomial x (t.coeff * (1 - (t.vars.length : R))) [q.nodes] := by
        unfold QuadraticRep.addUnary at b1
        rw [if_pos hw1] at b1
        cases b1
        simp only [qval, quadraticForm, List.map_append, List.map_cons, List.map_nil, List.sum_append, List.sum_cons, List.sum_nil, monomial]
        cases hx : x q.nodes <;> simp [hx] <;> ring
      rw [e1, a6]
      have e2 : qval { q with nodes := q.nodes + 1 } x = qval q x := rfl
      rw [e2]
      unfold monomial
      cases hx : x q.nodes <;> simp [hx]
      ring
    refine ⟨q2, ?_, ⟨b2.valid, ?_, ?_, ?_, ?_, ?_, fun x z h => mono_agree h _ _ hv⟩⟩
    · unfold reduceTerm
      rw [if_neg h2, if_pos hneg, a1]
      exact b1
    · rw [b3, a3]; simp
    · rw [b2.maxEdge, a4]
    · rw [b2.edges, a5, if_neg h2]; push_cast; ring
    · intro x
      rw [hval]
      obtain ⟨c1, c2⟩ := countP_all x t.vars
      unfold termVal monomial
      by_cases hall : t.vars.all x = true
      · rw [if_pos hall, c1 hall]
        split
        · apply le_of_eq; ring
        · linarith
      · rw [if_neg hall]
        have hle : ((t.vars.countP x : Nat) : R) + 1 ≤ (t.vars.length : R) := by exact_mod_cast c2 hall
        split
        · have : 0 ≤ t.coeff * (((t.vars.countP x : Nat) : R) + 1 - (t.vars.length : R)) := mul_nonneg_of_nonpos_of_nonpos hneg (by linarith)
          have e : t.coeff * ((t.vars.countP x : Nat) : R) + t.coeff * (1 - (t.vars.length : R)) = t.coeff * (((t.vars.countP x : Nat) : R) + 1 - (t.vars.length : R)) := by ring
          rw [e]; linarith
        · exact le_refl _
    · intro x
      refine ⟨fun i => if i = q.nodes then t.vars.all x else x i, fun i hi => by simp only []; rw [if_neg (by omega)], ?_⟩
      have hz : AgreeBelow q.nodes x (fun i => if i = q.nodes then t.vars.all x else x i) := fun i hi => by simp only []; rw [if_neg (by omega)]
      have hcount : t.vars.countP (fun i => if i = q.nodes then t.vars.all x else x i) = t.vars.countP x := by
        apply List.countP_congr
        intro v hm
        have := hz v (lt_of_lt_of_le (hv v hm) hn)
        simp only [] at this
        rw [this]
      rw [hval, hq.agree (le_refl _) hz, hcount]
      obtain ⟨c1, c2⟩ := countP_all x t.vars
      unfold termVal monomial
      simp only [if_true]
      by_cases hall : t.vars.all x = true
      · rw [if_pos hall, if_pos hall, c1 hall]; ring
      · rw [if_neg hall, if_neg hall]

theorem reduceTerms_spec {n : Nat} : ∀ (ts : List (HTerm R)) {q : QuadraticRep R}, QValid q → n ≤ q.nodes → (∀ t ∈ ts, 2 ≤ t.vars.length ∧ (∀ v ∈ t.vars, v < n) ∧ (t.vars.length = 2 ∨ t.coeff ≤ 0)) →
    ∃ q', ts.foldlM (fun q t => reduceTerm t q) q = some q' ∧ Good n q q' (fun x => termsVal x ts) (quadCount ts + degCount ts)
  | [], q, hq, _, _ => ⟨q, rfl, (Good.refl n hq).congr (fun _ => by simp [termsVal]) (by simp [quadCount, degCount])⟩
  | t :: ts, q, hq, hn, h => by
    obtain ⟨h1, h2, h3⟩ := h t (by simp)
    obtain ⟨q1, a1, a2⟩ := reduceTerm_spec hq hn t h1 h2 h3
    obtain ⟨q2, b1, b2⟩ := reduceTerms_spec ts a2.valid (le_trans hn a2.nodes) (fun u hu => h u (by simp [hu]))
    refine ⟨q2, by rw [List.foldlM_cons]; show (reduceTerm t q).bind _ = _; rw [a1]; exact b1, (a2.trans hn b2).congr (fun x => by rw [termsVal_cons]) ?_⟩
    simp only [quadCount, degCount, List.map_cons, List.sum_cons]
    split <;> ring

theorem reduceRecs_spec {n : Nat} : ∀ (rs : List (VarRecord R)) {q : QuadraticRep R}, QValid q → n ≤ q.nodes → (∀ r ∈ rs, ∀ t ∈ r.terms, 2 ≤ t.vars.length ∧ (∀ v ∈ t.vars, v < n) ∧ (t.vars.length = 2 ∨ t.coeff ≤ 0)) →
    ∃ q', rs.foldlM (fun q vr => vr.terms.foldlM (fun q t => reduceTerm t q) q) q = some q' ∧ Good n q q' (fun x => (rs.map (fun r => termsVal x r.terms)).sum) (rs.map (fun r => quadCount r.terms + degCount r.terms)).sum
  | [], q, hq, _, _ => ⟨q, rfl, (Good.refl n hq).congr (fun _ => by simp) (by simp)⟩
  | r :: rs, q, hq, hn, h => by
    obtain ⟨q1, a1, a2⟩ := reduceTerms_spec r.terms hq hn (h r (by simp))
    obtain ⟨q2, b1, b2⟩ := reduceRecs_spec rs a2.valid (le_trans hn a2.nodes) (fun u hu => h u (by simp [hu]))
    exact ⟨q2, by rw [List.foldlM_cons]; show Option.bind (List.foldlM _ q r.terms) _ = _; rw [a1]; exact b1, (a2.trans hn b2).congr (fun x => by simp) (by simp)⟩

theorem reduceUnary_spec {n : Nat} : ∀ (rs : List (VarRecord R)) {q : QuadraticRep R}, QValid q → n ≤ q.nodes → (∀ r ∈ rs, r.id < n) →
    ∃ q', rs.foldlM (fun (q : QuadraticRep R) (vr : VarRecord R) => q.addUnary vr.id 0 vr.coeff) q = some q' ∧ Good n q q' (fun x => (rs.map (fun r => monomial x r.coeff [r.id])).sum) 0
  | [], q, hq, _, _ => ⟨q, rfl, (Good.refl n hq).congr (fun _ => by simp) (by simp)⟩
  | r :: rs, q, hq, hn, h => by
    obtain ⟨q1, a1, a2, _⟩ := addUnary_good hq r.id (h r (by simp)) hn r.coeff
    obtain ⟨q2, b1, b2⟩ := reduceUnary_spec rs a2.valid (le_trans hn a2.nodes) (fun u hu => h u (by simp [hu]))
    exact ⟨q2, by rw [List.foldlM_cons]; show (q.addUnary _ _ _).bind _ = _; rw [a1]; exact b1, (a2.trans hn b2).congr (fun x => by simp) (by simp)⟩

theorem hoeVal_agree {D : Nat} {h : HOE R} (hk : OK D h) {n : Nat} (hn : h.varCounter ≤ n) {x z : Nat → Bool} (ha : AgreeBelow n x z) : hoeVal z h = hoeVal x h := by
  unfold hoeVal
  congr 1
  apply List.map_congr_left
  intro r hr
  obtain ⟨i, hi⟩ := List.getElem?_of_mem hr
  have hrk := hk.recs i r hi
  have hlt := (List.getElem?_eq_some_iff.1 hi).1
  have := hk.size
  unfold recVal termsVal
  congr 1
  · exact mono_agree ha _ _ (by intro v hv; simp at hv; rw [hv, hrk.id]; omega)
  · congr 1
    apply List.map_congr_left
    intro t ht
    obtain ⟨_, _, _, _, hrange, _⟩ := hrk.terms t ht
    exact mono_agree ha _ _ (fun v hv => lt_of_lt_of_le (hrange v hv) hn)

theorem reduce_spec {D : Nat} {h : HOE R} (hk : OK D h) (hs : ∀ r ∈ h.varRecords, ∀ t ∈ r.terms, t.vars.length = 2 ∨ t.coeff ≤ 0) :
    ∃ q, reduceNegativeTerms h QuadraticRep.empty = some q ∧ QValid q ∧ h.varCounter ≤ q.nodes ∧ q.maxEdgeNum = q.pairwise.length ∧ (∀ x, hoeVal x h ≤ qval q x) ∧
      (∀ x, ∃ z, AgreeBelow h.varCounter x z ∧ qval q z = hoeVal x h) := by
  have hrec : ∀ r ∈ h.varRecords, ∃ i, i < h.varCounter ∧ RecOK D h.varCounter i r := by
    intro r hr
    obtain ⟨i, hi⟩ := List.getElem?_of_mem hr
    have hlt := (List.getElem?_eq_some_iff.1 hi).1
    exact ⟨i, by rw [← hk.size]; exact hlt, hk.recs i r hi⟩
  set q0 : QuadraticRep R := ⟨(h.varRecords.map (fun vr => vr.quadraticTerms + vr.sumDegrees)).sum, h.varCounter, [], []⟩ with hq0
  have hv0 : QValid q0 := ⟨by simp [hq0], by simp [hq0]⟩
  have hn0 : h.varCounter ≤ q0.nodes := le_refl _
  obtain ⟨q1, a1, a2⟩ := reduceRecs_spec (n := h.varCounter) h.varRecords hv0 hn0 (by
    intro r hr t ht
    obtain ⟨i, _, hrk⟩ := hrec r hr
    obtain ⟨w, ws, hvars, _, hrange, _⟩ := hrk.terms t ht
    exact ⟨by rw [hvars]; simp, hrange, hs r hr t ht⟩)
  obtain ⟨q2, b1, b2⟩ := reduceUnary_spec (n := h.varCounter) h.varRecords a2.valid (le_trans hn0 a2.nodes) (by
    intro r hr
    obtain ⟨i, hi, hrk⟩ := hrec r hr
    rw [hrk.id]; exact hi)
  have hg := a2.trans hn0 b2
  have hval0 : ∀ x, qval q0 x = 0 := by intro x; simp [hq0, qval, quadraticForm]
  have hsum : ∀ x, (h.varRecords.map (fun r => termsVal x r.terms)).sum + (h.varRecords.map (fun r => monomial x r.coeff [r.id])).sum = hoeVal x h := by
    intro x
    unfold hoeVal recVal
    rw [← List.sum_map_add]
    congr 1
    apply List.map_congr_left
    intro r _
    ring
  refine ⟨q2, ?_, hg.valid, le_trans hn0 hg.nodes, ?_, ?_, ?_⟩
  · unfold reduceNegativeTerms
    simp only [QuadraticRep.empty, Nat.zero_add]
    rw [a1]
    exact b1
  · rw [hg.edges, hg.maxEdge]
    simp only [hq0, List.length_nil]
    rw [Int.natCast_zero, zero_add, add_zero]
    congr 1
    apply List.map_congr_left
    intro r hr
    obtain ⟨i, _, hrk⟩ := hrec r hr
    rw [hrk.quad, hrk.deg]
  · intro x
    have := hg.lower x
    rw [hval0, zero_add, hsum] at this
    exact this
  · intro x
    obtain ⟨z, hz, ez⟩ := hg.attained x
    rw [hval0, zero_add, hsum] at ez
    exact ⟨z, hz, ez⟩

/-- The whole transformation. -/
theorem toQuadratic_spec {D : Nat} (hD : 2 ≤ D) {h : HOE R} (hk : OK D h) :
    ∃ h' q, toQuadratic D h QuadraticRep.empty = some (h', q) ∧ OK D h' ∧ QValid q ∧ h'.varCounter = h.varCounter + h.varCounter ∧ h'.varCounter ≤ q.nodes ∧ h'.constantTerm = h.constantTerm ∧
      q.maxEdgeNum = q.pairwise.length ∧ (∀ x, hoeVal x h ≤ qval q x) ∧ (∀ x, ∃ z, AgreeBelow h.varCounter x z ∧ qval q z = hoeVal x h) ∧
      (∀ x, hoeVal x h ≤ hoeVal x h') ∧ (∀ x, ∃ z, AgreeBelow h.varCounter x z ∧ hoeVal z h' = hoeVal x h) := by
  obtain ⟨h', a1, a2, a3, a4, a5, a6, a7⟩ := eliminate_spec hD hk
  obtain ⟨q, b1, b2, b3, b4, b5, b6⟩ := reduce_spec a2 a5
  have hatt : ∀ x, ∃ z, AgreeBelow h.varCounter x z ∧ hoeVal z h' = hoeVal x h := by
    intro x
    have hz : AgreeBelow h.varCounter x (fun i => if i < h.varCounter then x i else !x (i - h.varCounter)) := fun i hi => by simp only []; rw [if_pos hi]
    refine ⟨_, hz, ?_⟩
    rw [a7 _ ?_, hoeVal_agree hk (le_refl _) hz]
    intro i hi
    rw [if_neg (by omega), if_pos hi, Nat.add_sub_cancel_left]
  refine ⟨h', q, by unfold toQuadratic; simp only [a1, b1], a2, b2, a3, b3, a4, b4, fun x => le_trans (a6 x) (b5 x), ?_, a6, hatt⟩
  intro x
  obtain ⟨z, hz, ez⟩ := hatt x
  obtain ⟨z', hz', ez'⟩ := b6 z
  refine ⟨z', fun i hi => ?_, by rw [ez', ez]⟩
  rw [hz' i (by rw [a3]; omega), hz i hi]

end OpenGM.Hoe
