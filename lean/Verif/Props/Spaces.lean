import Verif.Model.Spaces
import Verif.Spec.Spaces
/-
C82: spaces.
-/
namespace OpenGM.Spaces
open Spec

/-- The numbers of variables and labels are values of the types. -/
def Fits (T : Types) (ns : List Nat) : Prop := ns.length < T.I ∧ ∀ n ∈ ns, n < T.L

theorem map_mod {T : Types} {ns : List Nat} (h : Fits T ns) : ns.map (· % T.L) = ns := by
  have : ns.map (· % T.L) = ns.map id := by
    apply List.map_congr_left
    intro n hn
    exact Nat.mod_eq_of_lt (h.2 n hn)
  rw [this, List.map_id]

theorem describes_labels {T : Types} {ns : List Nat} (h : Fits T ns) : ∀ v, v < ns.length → ns[v % T.I]? = ns[v]? := by
  intro v hv
  rw [Nat.mod_eq_of_lt (Nat.lt_trans hv h.1)]

/-- The answers of the space `s`, with the memory `m`, describe the list `ns`. -/
def Shows (T : Types) (m : Memory) (s : Space) (ns : List Nat) : Prop := Describes ns (numberOfVariables T m s) (fun v => numberOfLabels T m v s)

/-! ### DiscreteSpace -/

/-- The DiscreteSpace objects a program can make, with the numbers of labels it has given. -/
inductive DiscreteMade (T : Types) : Space → List Nat → Prop
  | empty : DiscreteMade T discrete []
  | ofRange {ns : List Nat} (h : Fits T ns) : DiscreteMade T (discreteOf T ns) ns
  | assign {s : Space} {ns ms : List Nat} (h : DiscreteMade T s ns) (hf : Fits T ms) : DiscreteMade T (assignRange T ms) (SpaceCall.apply ns (.assign ms))
  | assignDense {s s' : Space} {ns ms : List Nat} (h : DiscreteMade T s ns) (hf : Fits T ms) (e : assignDense T s ms = .ok () s') : DiscreteMade T s' (SpaceCall.apply ns (.assign ms))
  | add {s s' : Space} {ns : List Nat} {k i : Nat} (h : DiscreteMade T s ns) (hf : Fits T (ns ++ [k])) (e : addVariable T s k = .ok i s') : DiscreteMade T s' (SpaceCall.apply ns (.add k))
  | reserve {s : Space} {ns : List Nat} (h : DiscreteMade T s ns) (n : Nat) : DiscreteMade T (Spaces.reserve s n) (SpaceCall.apply ns (.reserve n))

theorem DiscreteMade.spec {T : Types} (hT : 0 < T.I) {s : Space} {ns : List Nat} (h : DiscreteMade T s ns) : s = .discrete ns ∧ Fits T ns := by
  induction h with
  | empty => exact ⟨rfl, hT, by simp⟩
  | ofRange h => exact ⟨by rw [discreteOf, map_mod h], h⟩
  | assign h hf ih => exact ⟨by rw [assignRange, map_mod hf]; rfl, hf⟩
  | assignDense h hf e ih =>
    rw [ih.1] at e
    simp only [Spaces.assignDense, map_mod hf, Outcome.ok.injEq, true_and] at e
    exact ⟨e.symm, hf⟩
  | add h hf e ih =>
    rename_i s s' ns k i
    rw [ih.1] at e
    have hk : k < T.L := hf.2 k (by simp)
    simp only [Spaces.addVariable, Nat.mod_eq_of_lt hk, Outcome.ok.injEq] at e
    exact ⟨e.2.symm, hf⟩
  | reserve h n ih => exact ih

/-- C82: after every history of calls, a DiscreteSpace shows exactly the numbers of labels that were given, whatever the memory; addVariable and assignDense never fail, and addVariable returns the number of variables before. -/
theorem C82_discrete {T : Types} (hT : 0 < T.I) (m : Memory) {s : Space} {ns : List Nat} (h : DiscreteMade T s ns) :
    Shows T m s ns ∧
      (∀ k, Fits T (ns ++ [k]) → ∃ s', addVariable T s k = .ok ns.length s' ∧ DiscreteMade T s' (ns ++ [k])) ∧
      (∀ ms, Fits T ms → ∃ s', assignDense T s ms = .ok () s' ∧ DiscreteMade T s' ms) := by
  obtain ⟨rfl, hf⟩ := h.spec hT
  refine ⟨⟨?_, ?_⟩, ?_, ?_⟩
  · simp [numberOfVariables, baseVariables, Nat.mod_eq_of_lt hf.1]
  · intro v hv
    exact describes_labels hf v hv
  · intro k hk
    have e : addVariable T (.discrete ns) k = .ok ns.length (.discrete (ns ++ [k % T.L])) := by
      simp [addVariable, Nat.mod_eq_of_lt hf.1]
    exact ⟨_, e, .add h hk e⟩
  · intro ms hms
    exact ⟨_, rfl, .assignDense h hms rfl⟩

example : ∃ s, DiscreteMade ⟨2 ^ 32, 2 ^ 32⟩ s [3, 2, 5] :=
  ⟨_, .add (i := 2) (s := discreteOf ⟨2 ^ 32, 2 ^ 32⟩ [3, 2]) (k := 5) (.ofRange ⟨by decide, by decide⟩) ⟨by decide, by decide⟩ rfl⟩

/-! ### SimpleDiscreteSpace -/

/-- The SimpleDiscreteSpace objects a program can make, if no call has thrown, with the numbers of labels it shows and the number of labels that is allowed. -/
inductive SimpleMade (T : Types) : Space → List Nat → Nat → Prop
  | empty : SimpleMade T simple [] 0
  | ofNumber {n l : Nat} (hn : n < T.I) (hl : l < T.L) : SimpleMade T (simpleOf T n l) (List.replicate n l) l
  | assign {n l : Nat} (hn : n < T.I) (hl : l < T.L) : SimpleMade T (assignUniform T n l) (List.replicate n l) l
  | assignDense {s s' : Space} {ns ms : List Nat} {l k : Nat} (h : SimpleMade T s ns l) (hf : Fits T (k :: ms)) (e : assignDense T s (k :: ms) = .ok () s') : SimpleMade T s' (k :: ms) k
  | add {s s' : Space} {ns : List Nat} {l k i : Nat} (h : SimpleMade T s ns l) (hf : Fits T (ns ++ [k])) (e : addVariable T s k = .ok i s') : SimpleMade T s' (ns ++ [k]) l

theorem checkLoop_spec (T : Types) (l : Nat) (ks : List Nat) (h : ∀ k ∈ ks, k < T.L) : checkLoop T l ks = decide (∀ k ∈ ks, k = l) := by
  induction ks with
  | nil => simp [checkLoop]
  | cons k ks ih =>
    have hk : k % T.L = k := Nat.mod_eq_of_lt (h k (by simp))
    rw [checkLoop, hk]
    by_cases e : l = k
    · subst e
      rw [if_neg (by simp), ih (fun a ha => h a (by simp [ha]))]
      simp
    · rw [if_pos e]
      simp [Ne.symm e]

theorem eq_replicate {ns : List Nat} {l : Nat} (h : ∀ n ∈ ns, n = l) : ns = List.replicate ns.length l := List.eq_replicate_iff.mpr ⟨rfl, h⟩

theorem SimpleMade.spec {T : Types} (hT : 0 < T.I) (hL : 0 < T.L) {s : Space} {ns : List Nat} {l : Nat} (h : SimpleMade T s ns l) :
    s = .simple ns.length l ∧ ns.length < T.I ∧ l < T.L ∧ ∀ n ∈ ns, n = l := by
  induction h with
  | empty => exact ⟨rfl, hT, hL, by simp⟩
  | ofNumber hn hl => exact ⟨by simp [simpleOf, Nat.mod_eq_of_lt hn, Nat.mod_eq_of_lt hl], by simpa using hn, hl, fun n h => List.eq_of_mem_replicate h⟩
  | assign hn hl => exact ⟨by simp [assignUniform, Nat.mod_eq_of_lt hn, Nat.mod_eq_of_lt hl], by simpa using hn, hl, fun n h => List.eq_of_mem_replicate h⟩
  | assignDense h hf e ih =>
    rename_i s s' ns ms l k
    have hk : k < T.L := hf.2 k (by simp)
    rw [ih.1] at e
    simp only [Spaces.assignDense, Nat.mod_eq_of_lt hk, checkLoop_spec T k (k :: ms) hf.2] at e
    split at e
    · rename_i hd
      simp only [Outcome.ok.injEq, true_and] at e
      exact ⟨by rw [← e, Nat.mod_eq_of_lt hf.1], hf.1, hk, of_decide_eq_true hd⟩
    · simp at e
  | add h hf e ih =>
    rename_i s s' ns l k i
    have hk : k < T.L := hf.2 k (by simp)
    have hl := hf.1
    rw [List.length_append, List.length_singleton] at hl
    rw [ih.1] at e
    simp only [Spaces.addVariable, Nat.mod_eq_of_lt hk] at e
    split at e
    · simp at e
    · rename_i hd
      simp only [Outcome.ok.injEq] at e
      refine ⟨by rw [← e.2, Nat.mod_eq_of_lt hl]; simp, by simpa using hl, ih.2.2.1, ?_⟩
      intro n hn
      rcases List.mem_append.mp hn with hn | hn
      · exact ih.2.2.2 n hn
      · rw [List.mem_singleton] at hn
        subst hn
        exact Decidable.not_not.mp hd

/-- C82: a SimpleDiscreteSpace shows the numbers of labels that were given, which are all equal. addVariable adds a variable and returns the number of variables before, if the number of labels is the same as before; otherwise it
throws and the space is the same. assignDense on a range that is not empty succeeds if and only if all numbers are equal. Missing: what assignDense leaves when it throws, and the empty range (`C82_violated_simple`). -/
theorem C82_simple_partial {T : Types} (hT : 0 < T.I) (hL : 0 < T.L) (m : Memory) {s : Space} {ns : List Nat} {l : Nat} (h : SimpleMade T s ns l) :
    Shows T m s ns ∧ (∀ n ∈ ns, n = l) ∧
      (Fits T (ns ++ [l]) → ∃ s', addVariable T s l = .ok ns.length s' ∧ SimpleMade T s' (ns ++ [l]) l) ∧
      (∀ k, k < T.L → k ≠ l → addVariable T s k = .throw s) ∧
      (∀ ms, ms ≠ [] → Fits T ms → (SameNumbers ms → ∃ s' k, assignDense T s ms = .ok () s' ∧ SimpleMade T s' ms k) ∧ (¬ SameNumbers ms → ∃ s', assignDense T s ms = .throw s')) := by
  obtain ⟨rfl, h1, h2, h3⟩ := h.spec hT hL
  refine ⟨⟨rfl, ?_⟩, h3, ?_, ?_, ?_⟩
  · intro v hv
    show some l = ns[v]?
    rw [List.getElem?_eq_getElem hv, h3 _ (List.getElem_mem hv)]
  · intro hf
    have hl := hf.1
    rw [List.length_append, List.length_singleton] at hl
    have e : addVariable T (.simple ns.length l) l = .ok ns.length (.simple (ns.length + 1) l) := by
      simp only [addVariable, Nat.mod_eq_of_lt h2, ne_eq, not_true_eq_false, if_false, Nat.mod_eq_of_lt hl, Outcome.ok.injEq, and_true]
      rw [show ns.length + 1 + T.I - 1 = ns.length + T.I by omega, Nat.add_mod_right, Nat.mod_eq_of_lt h1]
    exact ⟨_, e, .add h hf e⟩
  · intro k hk hne
    simp [addVariable, Nat.mod_eq_of_lt hk, hne]
  · intro ms hne hf
    match ms, hne with
    | k :: ms, _ =>
      have hk : k < T.L := hf.2 k (by simp)
      have he : assignDense T (.simple ns.length l) (k :: ms) = if decide (∀ a ∈ k :: ms, a = k) then .ok () (.simple (k :: ms).length k) else .throw (.simple (k :: ms).length k) := by
        simp only [assignDense, Nat.mod_eq_of_lt hk, checkLoop_spec T k (k :: ms) hf.2, Nat.mod_eq_of_lt hf.1]
      constructor
      · intro ha
        have hd : ∀ a ∈ k :: ms, a = k := fun a h => ha a h k (by simp)
        rw [decide_eq_true hd, if_pos rfl] at he
        exact ⟨_, k, he, .assignDense h hf he⟩
      · intro ha
        have hd : ¬ ∀ a ∈ k :: ms, a = k := fun hc => ha (fun a h1 b h2 => (hc a h1).trans (hc b h2).symm)
        rw [decide_eq_false hd, if_neg (by simp)] at he
        exact ⟨_, he⟩

example : ∃ s, SimpleMade ⟨2 ^ 32, 2 ^ 32⟩ s [3, 3, 3] 3 :=
  ⟨_, .add (i := 2) (s := simpleOf ⟨2 ^ 32, 2 ^ 32⟩ 2 3) (k := 3) (.ofNumber (n := 2) (by decide) (by decide)) ⟨by decide, by decide⟩ rfl⟩

/-- C82 is violated by SimpleDiscreteSpace: assignDense reads the first element of an empty range (undefined behaviour), for every object; and when it throws because the numbers of labels are not equal, the space has changed: it
shows as many variables as there are numbers, all with the first number of labels. -/
theorem C82_violated_simple :
    (∀ (T : Types) (n l : Nat), assignDense T (.simple n l) [] = .ub) ∧
      assignDense ⟨2 ^ 32, 2 ^ 32⟩ (simpleOf ⟨2 ^ 32, 2 ^ 32⟩ 7 2) [4, 4, 5] = .throw (.simple 3 4) ∧
      ∀ m, Shows ⟨2 ^ 32, 2 ^ 32⟩ m (simpleOf ⟨2 ^ 32, 2 ^ 32⟩ 7 2) [2, 2, 2, 2, 2, 2, 2] ∧ Shows ⟨2 ^ 32, 2 ^ 32⟩ m (.simple 3 4) [4, 4, 4] := by
  refine ⟨fun _ _ _ => rfl, rfl, fun m => ⟨?_, ?_⟩⟩
  · exact (C82_simple_partial (T := ⟨2 ^ 32, 2 ^ 32⟩) (by decide) (by decide) m (.ofNumber (n := 7) (l := 2) (by decide) (by decide))).1
  · exact (C82_simple_partial (T := ⟨2 ^ 32, 2 ^ 32⟩) (by decide) (by decide) m (.ofNumber (n := 3) (l := 4) (by decide) (by decide))).1

/-! ### GridSpace -/

/-- C82: a GridSpace shows dimX * dimY variables with the same number of labels, however it was constructed or assigned; variables cannot be added and ranges cannot be assigned (exceptions, which change nothing). -/
theorem C82_grid {T : Types} (m : Memory) {x y l : Nat} (hx : x < T.I) (hy : y < T.I) (hl : l < T.L) (hxy : x * y < T.I) :
    gridOf T x y l = assignGrid T x y l ∧ Shows T m (gridOf T x y l) (List.replicate (x * y) l) ∧ Shows T m grid [] ∧
      ∀ s ∈ [grid, gridOf T x y l], (∀ k, addVariable T s k = .throw s) ∧ ∀ ns, assignDense T s ns = .throw s := by
  refine ⟨rfl, ⟨?_, ?_⟩, ⟨by simp [grid, numberOfVariables, baseVariables], by simp⟩, ?_⟩
  · simp [gridOf, numberOfVariables, baseVariables, Nat.mod_eq_of_lt hx, Nat.mod_eq_of_lt hy, Nat.mod_eq_of_lt hxy]
  · intro v hv
    rw [List.length_replicate] at hv
    simp [gridOf, numberOfLabels, baseLabels, Nat.mod_eq_of_lt hl, hv]
  · intro s hs
    simp only [List.mem_cons, List.not_mem_nil, or_false] at hs
    rcases hs with rfl | rfl <;> exact ⟨fun _ => rfl, fun _ => rfl⟩

example : Shows ⟨2 ^ 32, 2 ^ 32⟩ ⟨[], []⟩ (gridOf ⟨2 ^ 32, 2 ^ 32⟩ 2 3 4) [4, 4, 4, 4, 4, 4] :=
  (C82_grid (T := ⟨2 ^ 32, 2 ^ 32⟩) _ (by decide) (by decide) (by decide) (by decide)).2.1

/-- C82: the number of variables of a grid is computed modulo the number of values of the index type: a grid of 65536 times 65536 variables with 32 bit indices has no variables. -/
theorem C82_violated_grid : ∀ m, numberOfVariables ⟨2 ^ 32, 2 ^ 32⟩ m (gridOf ⟨2 ^ 32, 2 ^ 32⟩ 65536 65536 2) = some 0 := fun _ => rfl

/-! ### Views -/

/-- C82: a VectorViewSpace shows the vector it refers to, with its content at the time of the question; variables cannot be added and ranges cannot be assigned (exceptions, which change nothing). -/
theorem C82_vectorView {T : Types} (m : Memory) {p : Nat} {ns : List Nat} (h : m.vectors[p]? = some ns) (hf : Fits T ns) :
    Shows T m (vectorView (some p)) ns ∧ (∀ k, addVariable T (vectorView (some p)) k = .throw (vectorView (some p))) ∧
      ∀ ms, assignDense T (vectorView (some p)) ms = .throw (vectorView (some p)) := by
  refine ⟨⟨?_, ?_⟩, fun _ => rfl, fun _ => rfl⟩
  · simp [vectorView, numberOfVariables, h, Nat.mod_eq_of_lt hf.1]
  · intro v hv
    simp only [vectorView, numberOfLabels, h]
    exact describes_labels hf v hv

/-- C82: a ViewSpace shows what the space it refers to shows at the time of the question. Missing: addVariable (`C82_violated_views`). -/
theorem C82_view_partial {T : Types} (m : Memory) {p : Nat} {s : Space} {ns : List Nat} (h : m.spaces[p]? = some s)
    (hs : DiscreteMade T s ns ∨ (∃ l, SimpleMade T s ns l) ∨ ∃ x y l, x < T.I ∧ y < T.I ∧ l < T.L ∧ x * y < T.I ∧ s = gridOf T x y l ∧ ns = List.replicate (x * y) l)
    (hT : 0 < T.I) (hL : 0 < T.L) :
    Shows T m s ns ∧ Shows T m (assignView p) ns ∧ Shows T m (view (some p)) ns ∧ ∀ ms, assignDense T (view (some p)) ms = .throw (view (some p)) := by
  have key : Shows T m s ns ∧ (∀ q, s ≠ .vectorView q) ∧ (∀ q, s ≠ .view q) ∧ ns.length < T.I := by
    rcases hs with hs | ⟨l, hs⟩ | ⟨x, y, l, hx, hy, hl, hxy, rfl, rfl⟩
    · refine ⟨(C82_discrete hT m hs).1, ?_, ?_, (hs.spec hT).2.1⟩ <;> intro q <;> rw [(hs.spec hT).1] <;> exact Space.noConfusion
    · refine ⟨(C82_simple_partial hT hL m hs).1, ?_, ?_, (hs.spec hT hL).2.1⟩ <;> intro q <;> rw [(hs.spec hT hL).1] <;> exact Space.noConfusion
    · refine ⟨(C82_grid m hx hy hl hxy).2.1, ?_, ?_, by simpa using hxy⟩ <;> intro q <;> exact Space.noConfusion
  obtain ⟨k1, k2, k3, k4⟩ := key
  have hview : Shows T m (.view (some p)) ns := by
    refine ⟨?_, ?_⟩
    · rw [← k1.variables]
      simp only [numberOfVariables, h]
      cases s with
      | vectorView q => exact absurd rfl (k2 q)
      | view q => exact absurd rfl (k3 q)
      | _ => rfl
    · intro v hv
      rw [← k1.labels v hv]
      simp only [numberOfLabels, h, Nat.mod_eq_of_lt (Nat.lt_trans hv k4)]
      cases s with
      | vectorView q => exact absurd rfl (k2 q)
      | view q => exact absurd rfl (k3 q)
      | _ => rfl
  exact ⟨k1, hview, hview, fun _ => rfl⟩

example : Shows ⟨2 ^ 32, 2 ^ 32⟩ ⟨[[4, 5]], [simpleOf ⟨2 ^ 32, 2 ^ 32⟩ 2 3]⟩ (view (some 0)) [3, 3] ∧
    Shows ⟨2 ^ 32, 2 ^ 32⟩ ⟨[[4, 5]], [simpleOf ⟨2 ^ 32, 2 ^ 32⟩ 2 3]⟩ (vectorView (some 0)) [4, 5] :=
  ⟨(C82_view_partial (T := ⟨2 ^ 32, 2 ^ 32⟩) _ (p := 0) (s := simpleOf ⟨2 ^ 32, 2 ^ 32⟩ 2 3) rfl (.inr (.inl ⟨3, .ofNumber (n := 2) (by decide) (by decide)⟩)) (by decide) (by decide)).2.2.1,
    (C82_vectorView (T := ⟨2 ^ 32, 2 ^ 32⟩) _ (p := 0) (ns := [4, 5]) rfl ⟨by decide, by decide⟩).1⟩

/-- C82 is violated by views: the default constructors leave a null pointer, which every question dereferences; ViewSpace::addVariable makes an exception object without throwing it and then reaches the end of a function that
must return a value (undefined behaviour). -/
theorem C82_violated_views (T : Types) (m : Memory) :
    numberOfVariables T m (vectorView none) = none ∧ numberOfVariables T m (view none) = none ∧ isSimpleSpace T m (vectorView none) = none ∧ isSimpleSpace T m (view none) = none ∧
      ∀ p k, addVariable T (view p) k = .ub := ⟨rfl, rfl, rfl, rfl, fun _ _ => rfl⟩

/-! ### isSimpleSpace -/

theorem simpleLoop_spec (T : Types) (m : Memory) (s : Space) (ns : List Nat) (l : Nat) (hl : ∀ v, v < ns.length → numberOfLabels T m v s = ns[v]?) (hI : ns.length < T.I) :
    ∀ is : List Nat, (∀ i ∈ is, i < ns.length) → simpleLoop T m s l is = some (decide (∀ i ∈ is, ns[i]? = some l))
  | [], _ => by simp [simpleLoop]
  | i :: is, h => by
    have hi := h i (by simp)
    rw [simpleLoop, Nat.mod_eq_of_lt (Nat.lt_trans hi hI), hl i hi, List.getElem?_eq_getElem hi]
    simp only
    by_cases e : l = ns[i]
    · rw [if_neg (by simpa using e), simpleLoop_spec T m s ns l hl hI is (fun j hj => h j (by simp [hj]))]
      congr 1
      rw [decide_eq_decide]
      constructor
      · intro hj j hm
        rcases List.mem_cons.mp hm with rfl | hm
        · rw [List.getElem?_eq_getElem hi, e]
        · exact hj j hm
      · exact fun hj j hm => hj j (by simp [hm])
    · rw [if_pos e]
      have : ¬ ∀ j ∈ i :: is, ns[j]? = some l := by
        intro hj
        have := hj i (by simp)
        rw [List.getElem?_eq_getElem hi] at this
        exact e (by simpa using this.symm)
      rw [decide_eq_false this]

/-- C82: isSimpleSpace of a space of any class, with at least one variable, tells whether all variables have the same number of labels, if the numbers of labels are values of the index type. Missing: spaces without variables, and
larger numbers of labels (`C82_violated_isSimple`). -/
theorem C82_isSimple_partial {T : Types} (m : Memory) {s : Space} {ns : List Nat} (hs : Shows T m s ns) (hne : ns ≠ []) (hI : ns.length < T.I) (hfit : ∀ n ∈ ns, n < T.I) :
    isSimpleSpace T m s = some (decide (SameNumbers ns)) := by
  have hpos : 0 < ns.length := List.length_pos_iff.mpr hne
  have hall : ∀ l, (∀ v, v < ns.length → numberOfLabels T m v s = some l) → SameNumbers ns := by
    intro l h a ha b hb
    obtain ⟨i, hi⟩ := List.getElem?_of_mem ha
    obtain ⟨j, hj⟩ := List.getElem?_of_mem hb
    have hil := (List.getElem?_eq_some_iff.mp hi).1
    have hjl := (List.getElem?_eq_some_iff.mp hj).1
    have e1 : numberOfLabels T m i s = ns[i]? := hs.labels i hil
    have e2 : numberOfLabels T m j s = ns[j]? := hs.labels j hjl
    rw [h i hil, hi] at e1
    rw [h j hjl, hj] at e2
    simp only [Option.some.injEq] at e1 e2
    omega
  have hgen : (match numberOfVariables T m s, numberOfLabels T m 0 s with
      | some n, some l => simpleLoop T m s (l % T.I) (List.range' 1 (n - 1))
      | _, _ => none) = some (decide (SameNumbers ns)) := by
    have h0 : numberOfLabels T m 0 s = some ns[0] := by
      have := hs.labels 0 hpos
      simpa [List.getElem?_eq_getElem hpos] using this
    rw [hs.variables, h0]
    simp only
    rw [Nat.mod_eq_of_lt (hfit _ (List.getElem_mem hpos)), simpleLoop_spec T m s ns ns[0] hs.labels hI _ (by intro i hi; have := List.mem_range'_1.mp hi; omega)]
    congr 1
    rw [decide_eq_decide]
    constructor
    · intro h
      have hh : ∀ a ∈ ns, a = ns[0] := by
        intro a ha
        obtain ⟨i, hi⟩ := List.getElem?_of_mem ha
        have hil := (List.getElem?_eq_some_iff.mp hi).1
        by_cases e : i = 0
        · subst e
          rw [List.getElem?_eq_getElem hpos] at hi
          simpa using hi.symm
        · have := h i (List.mem_range'_1.mpr ⟨by omega, by omega⟩)
          rw [hi] at this
          simpa using this
      exact fun a ha b hb => (hh a ha).trans (hh b hb).symm
    · intro h i hi
      have := List.mem_range'_1.mp hi
      have hil : i < ns.length := by omega
      rw [List.getElem?_eq_getElem hil, h _ (List.getElem_mem hil) _ (List.getElem_mem hpos)]
  cases s with
  | simple n l => rw [decide_eq_true (hall l (fun _ _ => rfl))]; rfl
  | grid x y l => rw [decide_eq_true (hall l (fun _ _ => rfl))]; rfl
  | discrete _ => exact hgen
  | vectorView _ => exact hgen
  | view _ => exact hgen

example : isSimpleSpace ⟨2 ^ 32, 2 ^ 32⟩ ⟨[], []⟩ (discreteOf ⟨2 ^ 32, 2 ^ 32⟩ [3, 3, 4]) = some false ∧ isSimpleSpace ⟨2 ^ 32, 2 ^ 32⟩ ⟨[], []⟩ (discreteOf ⟨2 ^ 32, 2 ^ 32⟩ [3, 3, 3]) = some true := by decide

/-- C82 is violated by isSimpleSpace: for a DiscreteSpace without variables it reads the number of labels of the first variable (undefined behaviour); and since this number is stored with the type of an index, with 16 bit indices
and 32 bit labels two variables with 65537 labels are reported as different, and variables with 65537 and 1 labels as equal. -/
theorem C82_violated_isSimple : (∀ T m, isSimpleSpace T m discrete = none) ∧
    (∀ m, isSimpleSpace ⟨2 ^ 16, 2 ^ 32⟩ m (discreteOf ⟨2 ^ 16, 2 ^ 32⟩ [65537, 65537]) = some false) ∧
    ∀ m, isSimpleSpace ⟨2 ^ 16, 2 ^ 32⟩ m (discreteOf ⟨2 ^ 16, 2 ^ 32⟩ [65537, 1]) = some true := ⟨fun _ _ => by simp [isSimpleSpace, discrete, numberOfLabels, baseLabels], fun _ => rfl, fun _ => rfl⟩

end OpenGM.Spaces
