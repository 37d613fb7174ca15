import Verif.Lemmas.HigherOrderReduce
/-
C71: a HigherOrderEnergy is a polynomial in Boolean variables, and ToQuadratic gives a quadratic function with the same minimum over the additional variables.
-/
namespace OpenGM
open Spec (monomial polynomial quadraticForm constantPart overwrite AgreeBelow)
open Hoe
variable {R : Type} [CommRing R] [LinearOrder R] [IsStrictOrderedRing R]

/-- The objects that a user builds with AddVars, AddTerm and AddUnaryTerm: `n` variables and the monomials added. The variables of a monomial are increasing, at most `D`, and added before. -/
inductive HoeBuilt (D : Nat) : HOE R → Nat → List (R × List Nat) → Prop
  | new : HoeBuilt D construct 0 []
  | addVar {h n ms} : HoeBuilt D h n ms → HoeBuilt D (addVar h).2 (n + 1) ms
  | addVars {h n ms} (k : Nat) : HoeBuilt D h n ms → HoeBuilt D (addVars h k).2 (n + k) ms
  | addTerm {h n ms} (c : R) (vs : List Nat) (h' : HOE R) : HoeBuilt D h n ms → vs.Pairwise (· < ·) → (∀ v ∈ vs, v < n) → vs.length ≤ D → Hoe.addTerm D h c vs = some h' → HoeBuilt D h' n (ms ++ [(c, vs)])
  | addUnaryTerm {h n ms} (c : R) (v : Nat) (h' : HOE R) : HoeBuilt D h n ms → v < n → Hoe.addUnaryTerm h v c = some h' → HoeBuilt D h' n (ms ++ [(c, [v])])

theorem polynomial_snoc (x : Nat → Bool) (ms : List (R × List Nat)) (c : R) (vs : List Nat) : polynomial x (ms ++ [(c, vs)]) = polynomial x ms + monomial x c vs := by
  simp [polynomial]
theorem constantPart_snoc (ms : List (R × List Nat)) (c : R) (vs : List Nat) : constantPart (ms ++ [(c, vs)]) = constantPart ms + (if vs.isEmpty then c else 0) := by
  unfold constantPart
  rw [List.filter_append]
  cases vs <;> simp

theorem HoeBuilt.spec {D : Nat} {h : HOE R} {n : Nat} {ms : List (R × List Nat)} (hb : HoeBuilt D h n ms) :
    OK D h ∧ h.varCounter = n ∧ h.constantTerm = constantPart ms ∧ ∀ x, hoeVal x h + constantPart ms = polynomial x ms := by
  induction hb with
  | new => exact ⟨⟨rfl, by simp [construct]⟩, rfl, rfl, fun x => by simp [hoeVal, construct, constantPart, polynomial]⟩
  | @addVar h n ms _ ih =>
    obtain ⟨a, b, c, d⟩ := ih
    obtain ⟨a1, a2, a3, a4, _⟩ := addVar_spec a
    exact ⟨a1, by rw [a3, b], c, fun x => by rw [a4, d]⟩
  | @addVars h n ms k _ ih =>
    obtain ⟨a, b, c, d⟩ := ih
    obtain ⟨a1, a2, a3, a4, a5⟩ := addVars_spec k a
    exact ⟨a1, by rw [a3, b], by rw [a5, c], fun x => by rw [a4, d]⟩
  | @addTerm h n ms c vs h' _ hinc hr hd he ih =>
    obtain ⟨a, b, e, d⟩ := ih
    cases vs with
    | nil =>
      unfold Hoe.addTerm at he
      split at he
      · rename_i hc
        cases he
        refine ⟨a, b, ?_, fun x => ?_⟩
        · rw [constantPart_snoc, e, hc]; simp
        · rw [constantPart_snoc, polynomial_snoc, ← d x, hc]; simp [monomial]
      · simp only [Option.some.injEq] at he
        subst he
        refine ⟨a.constant _, b, ?_, fun x => ?_⟩
        · rw [constantPart_snoc]; simp [e]
        · rw [constantPart_snoc, polynomial_snoc, ← d x]
          have : hoeVal x { h with constantTerm := h.constantTerm + c } = hoeVal x h := rfl
          rw [this]; simp [monomial]; ring
    | cons v vs =>
      obtain ⟨h1, e1, ha⟩ := addTerm_spec a c v vs ⟨hinc, by rw [b]; exact hr, hd⟩
      rw [e1] at he
      cases he
      refine ⟨ha.ok, by rw [ha.counter, b], ?_, fun x => ?_⟩
      · rw [constantPart_snoc, ha.constant, e]; simp
      · rw [constantPart_snoc, polynomial_snoc, ha.val, ← d x]; simp; ring
  | @addUnaryTerm h n ms c v h' _ hv he ih =>
    obtain ⟨a, b, e, d⟩ := ih
    obtain ⟨h1, e1, ha⟩ := addUnaryTerm_spec a c v (by rw [b]; exact hv)
    rw [e1] at he
    cases he
    refine ⟨ha.ok, by rw [ha.counter, b], ?_, fun x => ?_⟩
    · rw [constantPart_snoc, ha.constant, e]; simp
    · rw [constantPart_snoc, polynomial_snoc, ha.val, ← d x]; simp; ring

/-- The objects after any number of calls of ToQuadratic, and of AddTerm and AddUnaryTerm with the `n` variables in between. -/
inductive HoeUsed (D : Nat) : HOE R → Nat → List (R × List Nat) → Prop
  | built {h n ms} : HoeBuilt D h n ms → HoeUsed D h n ms
  | toQuadratic {h n ms} (h' : HOE R) (q : QuadraticRep R) : HoeUsed D h n ms → Hoe.toQuadratic D h QuadraticRep.empty = some (h', q) → HoeUsed D h' n ms
  | addTerm {h n ms} (c : R) (vs : List Nat) (h' : HOE R) : HoeUsed D h n ms → vs.Pairwise (· < ·) → (∀ v ∈ vs, v < n) → vs.length ≤ D → Hoe.addTerm D h c vs = some h' → HoeUsed D h' n (ms ++ [(c, vs)])
  | addUnaryTerm {h n ms} (c : R) (v : Nat) (h' : HOE R) : HoeUsed D h n ms → v < n → Hoe.addUnaryTerm h v c = some h' → HoeUsed D h' n (ms ++ [(c, [v])])

/-- What an object means: the polynomial is the minimum over the variables from `n` on. -/
structure HoeMeans (D : Nat) (h : HOE R) (n : Nat) (ms : List (R × List Nat)) : Prop where
  ok : OK D h
  size : n ≤ h.varCounter
  constant : h.constantTerm = constantPart ms
  lower : ∀ x, polynomial x ms ≤ hoeVal x h + constantPart ms
  attained : ∀ x, ∃ z, AgreeBelow n x z ∧ hoeVal z h + constantPart ms = polynomial x ms

theorem HoeMeans.add {D : Nat} {h h' : HOE R} {n : Nat} {ms : List (R × List Nat)} (hm : HoeMeans D h n ms) {c : R} {v : Nat} {vs : List Nat} (hr : ∀ u ∈ v :: vs, u < n) (ha : Added D h c v vs h') :
    HoeMeans D h' n (ms ++ [(c, v :: vs)]) := by
  refine ⟨ha.ok, by rw [ha.counter]; exact hm.size, ?_, fun x => ?_, fun x => ?_⟩
  · rw [constantPart_snoc, ha.constant, hm.constant]; simp
  · rw [constantPart_snoc, polynomial_snoc, ha.val]
    have := hm.lower x
    simp only [List.isEmpty_cons, Bool.false_eq_true, if_false, add_zero]
    linarith
  · obtain ⟨z, hz, ez⟩ := hm.attained x
    refine ⟨z, hz, ?_⟩
    rw [constantPart_snoc, polynomial_snoc, ha.val, ← ez, mono_agree hz c (v :: vs) hr]
    simp only [List.isEmpty_cons, Bool.false_eq_true, if_false, add_zero]
    ring

theorem HoeUsed.means {D : Nat} (hD : 2 ≤ D) {h : HOE R} {n : Nat} {ms : List (R × List Nat)} (hb : HoeUsed D h n ms) : HoeMeans D h n ms := by
  induction hb with
  | built hb =>
    obtain ⟨a, b, c, d⟩ := hb.spec
    exact ⟨a, by rw [b], c, fun x => le_of_eq (d x).symm, fun x => ⟨x, fun _ _ => rfl, d x⟩⟩
  | @toQuadratic h n ms h' q _ he ih =>
    obtain ⟨h1, q1, c1, c2, c3, c4, c5, c6, c7, c8, c9, c10, c11⟩ := toQuadratic_spec hD ih.ok
    rw [he] at c1
    cases c1
    refine ⟨c2, by have := ih.size; omega, by rw [c6, ih.constant], fun x => ?_, fun x => ?_⟩
    · have := ih.lower x; have := c10 x
      linarith
    · obtain ⟨z, hz, ez⟩ := ih.attained x
      obtain ⟨z', hz', ez'⟩ := c11 z
      refine ⟨z', fun i hi => ?_, by rw [ez', ez]⟩
      rw [hz' i (lt_of_lt_of_le hi ih.size), hz i hi]
  | @addTerm h n ms c vs h' _ hinc hr hd he ih =>
    cases vs with
    | nil =>
      unfold Hoe.addTerm at he
      split at he
      · rename_i hc
        cases he
        refine ⟨ih.ok, ih.size, ?_, fun x => ?_, fun x => ?_⟩
        · rw [constantPart_snoc, ih.constant, hc]; simp
        · have := ih.lower x
          rw [constantPart_snoc, polynomial_snoc, hc]; simpa [monomial] using this
        · obtain ⟨z, hz, ez⟩ := ih.attained x
          exact ⟨z, hz, by rw [constantPart_snoc, polynomial_snoc, hc]; simpa [monomial] using ez⟩
      · simp only [Option.some.injEq] at he
        subst he
        refine ⟨ih.ok.constant _, ih.size, ?_, fun x => ?_, fun x => ?_⟩
        · rw [constantPart_snoc]; simp [ih.constant]
        · have := ih.lower x
          have e : hoeVal x { h with constantTerm := h.constantTerm + c } = hoeVal x h := rfl
          rw [constantPart_snoc, polynomial_snoc, e]
          simp [monomial]
          linarith
        · obtain ⟨z, hz, ez⟩ := ih.attained x
          refine ⟨z, hz, ?_⟩
          have e : hoeVal z { h with constantTerm := h.constantTerm + c } = hoeVal z h := rfl
          rw [constantPart_snoc, polynomial_snoc, e, ← ez]
          simp [monomial]
          ring
    | cons v vs =>
      obtain ⟨h1, e1, ha⟩ := addTerm_spec ih.ok c v vs ⟨hinc, fun u hu => lt_of_lt_of_le (hr u hu) ih.size, hd⟩
      rw [e1] at he
      cases he
      exact ih.add hr ha
  | @addUnaryTerm h n ms c v h' _ hv he ih =>
    obtain ⟨h1, e1, ha⟩ := addUnaryTerm_spec ih.ok c v (lt_of_lt_of_le hv ih.size)
    rw [e1] at he
    cases he
    exact ih.add (by simpa using hv) ha

/-- C71: a monomial with increasing variables that exist, at most `D` of them, can be added. -/
theorem C71_add {D : Nat} (hD : 2 ≤ D) {h : HOE R} {n : Nat} {ms : List (R × List Nat)} (hb : HoeUsed D h n ms) (c : R) (vs : List Nat) (hinc : vs.Pairwise (· < ·)) (hr : ∀ v ∈ vs, v < n) (hd : vs.length ≤ D) :
    (∃ h', Hoe.addTerm D h c vs = some h') ∧ (∀ v, v < n → ∃ h', Hoe.addUnaryTerm h v c = some h') := by
  have hm := hb.means hD
  refine ⟨?_, fun v hv => ?_⟩
  · cases vs with
    | nil => unfold Hoe.addTerm; split <;> exact ⟨_, rfl⟩
    | cons v vs =>
      obtain ⟨h1, e1, _⟩ := addTerm_spec hm.ok c v vs ⟨hinc, fun u hu => lt_of_lt_of_le (hr u hu) hm.size, hd⟩
      exact ⟨h1, e1⟩
  · obtain ⟨h1, e1, _⟩ := addUnaryTerm_spec hm.ok c v (lt_of_lt_of_le hv hm.size)
    exact ⟨h1, e1⟩

/-- `q` represents the polynomial: its terms use existing nodes, the expected number of edges is right, and the polynomial (without its constant) is the minimum of the quadratic function over
the nodes from `n` on. -/
structure QuadraticFor (n : Nat) (ms : List (R × List Nat)) (q : QuadraticRep R) : Prop where
  nodes : n ≤ q.nodes
  unary : ∀ t ∈ q.unary, t.1 < q.nodes
  pairwise : ∀ t ∈ q.pairwise, t.1 < q.nodes ∧ t.2.1 < q.nodes
  edges : q.maxEdgeNum = q.pairwise.length
  lower : ∀ x, polynomial x ms ≤ quadraticForm q.unary q.pairwise x + constantPart ms
  attained : ∀ x, ∃ z, AgreeBelow n x z ∧ quadraticForm q.unary q.pairwise z + constantPart ms = polynomial x ms

/-- C71: ToQuadratic represents the polynomial that was built, also if it was called before. -/
theorem C71_quadratic {D : Nat} (hD : 2 ≤ D) {h : HOE R} {n : Nat} {ms : List (R × List Nat)} (hb : HoeUsed D h n ms) :
    ∃ h' q, toQuadratic D h QuadraticRep.empty = some (h', q) ∧ QuadraticFor n ms q := by
  have hm := hb.means hD
  obtain ⟨h', q, c1, c2, c3, c4, c5, c6, c7, c8, c9, _⟩ := toQuadratic_spec hD hm.ok
  refine ⟨h', q, c1, ⟨by have := hm.size; omega, c3.unary, c3.pairwise, c7, fun x => ?_, fun x => ?_⟩⟩
  · have h1 := c8 x
    unfold qval at h1
    have := hm.lower x
    linarith
  · obtain ⟨z, hz, ez⟩ := hm.attained x
    obtain ⟨z', hz', ez'⟩ := c9 z
    refine ⟨z', fun i hi => ?_, by unfold qval at ez'; rw [ez', ez]⟩
    rw [hz' i (lt_of_lt_of_le hi hm.size), hz i hi]

/-- C71: a minimizer of the quadratic function is, on the variables, a minimizer of the polynomial. -/
theorem C71_minimum {n : Nat} {ms : List (R × List Nat)} {q : QuadraticRep R} (hq : QuadraticFor n ms q) (z : Nat → Bool)
    (hz : ∀ z', quadraticForm q.unary q.pairwise z ≤ quadraticForm q.unary q.pairwise z') (y : Nat → Bool) : polynomial z ms ≤ polynomial y ms := by
  obtain ⟨y', _, ey⟩ := hq.attained y
  have := hq.lower z
  have := hz y'
  linarith

/-- C71: a partial assignment of the nodes that makes no assignment of the quadratic function worse (as QPBO finds) makes no assignment of the polynomial worse. -/
theorem C71_persistent {n : Nat} {ms : List (R × List Nat)} (hms : ∀ m ∈ ms, ∀ v ∈ m.2, v < n) {q : QuadraticRep R} (hq : QuadraticFor n ms q) (p : Nat → Option Bool)
    (hp : ∀ z, quadraticForm q.unary q.pairwise (overwrite p z) ≤ quadraticForm q.unary q.pairwise z) (x : Nat → Bool) : polynomial (overwrite p x) ms ≤ polynomial x ms := by
  obtain ⟨z, hz, ez⟩ := hq.attained x
  have h1 := hq.lower (overwrite p z)
  have h2 := hp z
  have h3 : polynomial (overwrite p z) ms = polynomial (overwrite p x) ms := by
    unfold polynomial
    congr 1
    apply List.map_congr_left
    intro m hm
    apply mono_agree (n := n) _ _ _ (hms m hm)
    intro i hi
    unfold overwrite
    rw [hz i hi]
  linarith

/-- The monomials that were added only use the variables. -/
theorem HoeUsed.range {D : Nat} {h : HOE R} {n : Nat} {ms : List (R × List Nat)} (hb : HoeUsed D h n ms) : ∀ m ∈ ms, ∀ v ∈ m.2, v < n := by
  have hbuilt : ∀ {h : HOE R} {n : Nat} {ms : List (R × List Nat)}, HoeBuilt D h n ms → ∀ m ∈ ms, ∀ v ∈ m.2, v < n := by
    intro h n ms hb
    induction hb with
    | new => simp
    | addVar _ ih => exact fun m hm v hv => Nat.lt_succ_of_lt (ih m hm v hv)
    | addVars k _ ih => exact fun m hm v hv => lt_of_lt_of_le (ih m hm v hv) (Nat.le_add_right _ _)
    | addTerm c vs h' _ _ hr _ _ ih =>
      intro m hm v hv
      rcases List.mem_append.1 hm with e | e
      · exact ih m e v hv
      · rw [List.mem_singleton] at e; rw [e] at hv; exact hr v hv
    | addUnaryTerm c w h' _ hw _ ih =>
      intro m hm v hv
      rcases List.mem_append.1 hm with e | e
      · exact ih m e v hv
      · rw [List.mem_singleton] at e; rw [e] at hv; simp at hv; rw [hv]; exact hw
  induction hb with
  | built hb => exact hbuilt hb
  | toQuadratic _ _ _ _ ih => exact ih
  | addTerm c vs h' _ _ hr _ _ ih =>
    intro m hm v hv
    rcases List.mem_append.1 hm with e | e
    · exact ih m e v hv
    · rw [List.mem_singleton] at e; rw [e] at hv; exact hr v hv
  | addUnaryTerm c w h' _ hw _ ih =>
    intro m hm v hv
    rcases List.mem_append.1 hm with e | e
    · exact ih m e v hv
    · rw [List.mem_singleton] at e; rw [e] at hv; simp at hv; rw [hv]; exact hw

/-! ### Examples and disagreements -/

/-- `7 x0 - 8 x2 + 27 x0 x1 x2 - 31 x0 x1 x3 + 18 x0 x1 x2 x3 + 5` in four variables. -/
def hoeExample : Option (HOE Int) := do
  let h := (addVars construct 4).2
  let h ← Hoe.addUnaryTerm h 0 7
  let h ← Hoe.addTerm 4 h (-8) [2]
  let h ← Hoe.addTerm 4 h 27 [0, 1, 2]
  let h ← Hoe.addTerm 4 h (-31) [0, 1, 3]
  let h ← Hoe.addTerm 4 h 18 [0, 1, 2, 3]
  Hoe.addTerm 4 h 5 []

/-- The hypotheses of `C71_add`, `C71_quadratic` and `C71_persistent` are met by this polynomial. -/
theorem hoeExample_built : ∃ h, hoeExample = some h ∧ HoeBuilt 4 h 4 [(7, [0]), (-8, [2]), (27, [0, 1, 2]), (-31, [0, 1, 3]), (18, [0, 1, 2, 3]), (5, [])] := by
  have b0 : HoeBuilt 4 (addVars (construct : HOE Int) 4).2 4 [] := HoeBuilt.addVars 4 HoeBuilt.new
  obtain ⟨h1, e1⟩ := (C71_add (by omega) (.built b0) 7 [] (by simp) (by simp) (by simp)).2 0 (by omega)
  have b1 := HoeBuilt.addUnaryTerm 7 0 h1 b0 (by omega) e1
  obtain ⟨h2, e2⟩ := (C71_add (by omega) (.built b1) (-8) [2] (by simp) (by simp) (by simp)).1
  have b2 := HoeBuilt.addTerm (-8) [2] h2 b1 (by simp) (by simp) (by simp) e2
  obtain ⟨h3, e3⟩ := (C71_add (by omega) (.built b2) 27 [0, 1, 2] (by simp) (by simp) (by simp)).1
  have b3 := HoeBuilt.addTerm 27 [0, 1, 2] h3 b2 (by simp) (by simp) (by simp) e3
  obtain ⟨h4, e4⟩ := (C71_add (by omega) (.built b3) (-31) [0, 1, 3] (by simp) (by simp) (by simp)).1
  have b4 := HoeBuilt.addTerm (-31) [0, 1, 3] h4 b3 (by simp) (by simp) (by simp) e4
  obtain ⟨h5, e5⟩ := (C71_add (by omega) (.built b4) 18 [0, 1, 2, 3] (by simp) (by simp) (by simp)).1
  have b5 := HoeBuilt.addTerm 18 [0, 1, 2, 3] h5 b4 (by simp) (by simp) (by simp) e5
  obtain ⟨h6, e6⟩ := (C71_add (by omega) (.built b5) 5 [] (by simp) (by simp) (by simp)).1
  refine ⟨h6, ?_, HoeBuilt.addTerm 5 [] h6 b5 (by simp) (by simp) (by simp) e6⟩
  unfold hoeExample
  simp only [Option.bind_eq_bind]
  rw [e1]; simp only [Option.bind_some]
  rw [e2]; simp only [Option.bind_some]
  rw [e3]; simp only [Option.bind_some]
  rw [e4]; simp only [Option.bind_some]
  rw [e5]; simp only [Option.bind_some]
  exact e6

/-- The quadratic function of the example: 8 nodes for the variables and their complements, 4 for terms of more than two variables, 18 edges. -/
example : (hoeExample.bind (fun h => toQuadratic 4 h QuadraticRep.empty)).map (fun r => (r.2.nodes, r.2.maxEdgeNum, r.2.pairwise.length, r.2.unary.length)) = some (12, 18, 18, 12) := by decide +kernel

/-- The quadratic function of `- x0 x1 x2` has a minimizer, so the hypothesis of `C71_minimum` is met. -/
example : ∃ q : QuadraticRep Int, QuadraticFor 3 [(-1, [0, 1, 2])] q ∧ ∃ z, ∀ z', quadraticForm q.unary q.pairwise z ≤ quadraticForm q.unary q.pairwise z' := by
  have b0 : HoeBuilt 3 (addVars (construct : HOE Int) 3).2 3 [] := HoeBuilt.addVars 3 HoeBuilt.new
  obtain ⟨h1, e1⟩ := (C71_add (by omega) (.built b0) (-1) [0, 1, 2] (by simp) (by simp) (by simp)).1
  have b1 := HoeBuilt.addTerm (-1) [0, 1, 2] h1 b0 (by simp) (by simp) (by simp) e1
  obtain ⟨_, q, _, hq⟩ := C71_quadratic (by omega) (.built b1)
  refine ⟨q, hq, ?_⟩
  obtain ⟨z, _, ez⟩ := hq.attained (fun _ => true)
  refine ⟨z, fun z' => ?_⟩
  have h1 := hq.lower z'
  have h2 : (-1 : Int) ≤ polynomial z' ([] ++ [((-1 : Int), [0, 1, 2])]) := by
    simp only [polynomial, monomial, List.nil_append, List.map_cons, List.map_nil, List.sum_cons, List.sum_nil]
    split <;> omega
  have h3 : polynomial (fun _ => true) ([] ++ [((-1 : Int), [0, 1, 2])]) = -1 := by decide
  rw [h3] at ez
  omega

/-- C71 (violated): `Clear` removes the variables but keeps counting from the old number, so the variable that `AddVar` returns afterwards does not exist (a write out of range), and the constant is kept.
Here two variables and the constant 3 are added, then `Clear` and `AddVar`. -/
theorem C71_violated_clear : ∃ h : HOE Int, Hoe.addTerm 4 (addVars construct 2).2 3 [] = some h ∧ (addVar (clear h)).1 = 2 ∧ (addVar (clear h)).2.constantTerm = 3 ∧
    Hoe.addUnaryTerm (addVar (clear h)).2 (addVar (clear h)).1 1 = none := by
  refine ⟨_, rfl, ?_, ?_, ?_⟩ <;> decide

/-- C71 (violated): the interface of `AddTerm` does not say that the variables must be in increasing order, but with `x3 x2 x1 x0` given in decreasing order `ToQuadratic` meets a positive term of
degree three and stops in its assertion. -/
theorem C71_violated_unsorted : ∃ h : HOE Int, Hoe.addTerm 4 (addVars construct 4).2 1 [3, 2, 1, 0] = some h ∧ (toQuadratic 4 h QuadraticRep.empty).isNone = true ∧
    ∃ h', Hoe.addTerm 4 (addVars construct 4).2 (1 : Int) [0, 1, 2, 3] = some h' ∧ (toQuadratic 4 h' QuadraticRep.empty).isSome = true := by
  refine ⟨_, rfl, by decide +kernel, _, rfl, by decide +kernel⟩

/-- C71 (violated): a quadratic representation does not get the constant of the polynomial, so a lower bound of the quadratic function is not a lower bound of the polynomial: for the polynomial `-3`
the quadratic function is 0. -/
theorem C71_violated_constant : ∃ h : HOE Int, Hoe.addTerm 4 construct (-3) [] = some h ∧ ∃ h' q, toQuadratic 4 h QuadraticRep.empty = some (h', q) ∧
    ∀ x, quadraticForm q.unary q.pairwise x = 0 ∧ polynomial x [((-3 : Int), [])] = -3 := by
  refine ⟨_, rfl, _, _, rfl, ?_⟩
  intro x
  exact ⟨by simp [quadraticForm, QuadraticRep.empty], by simp [polynomial, monomial]⟩

end OpenGM
