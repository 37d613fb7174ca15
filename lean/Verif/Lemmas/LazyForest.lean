import Verif.Lemmas.LazyEnergy
/-
Lemmas about the forest of paths of the model of LazyFlipper.
-/
namespace OpenGM.LazyFlip
open Spec

/-! ### paths -/

/-- The values from the root to the node. -/
inductive Path (f : Forest) : Nat → List Nat → Prop
  | root {i nd} : f.nodes[i]? = some nd → nd.parent = none → Path f i [nd.value]
  | child {i nd q P} : f.nodes[i]? = some nd → nd.parent = some q → Path f q P → Path f i (P ++ [nd.value])

theorem Path.unique {f : Forest} {i : Nat} {P Q : List Nat} (h : Path f i P) (h' : Path f i Q) : P = Q := by
  induction h generalizing Q with
  | root e1 e2 =>
    cases h' with
    | root e3 e4 => rw [e1] at e3; obtain rfl := Option.some.inj e3; rfl
    | child e3 e4 _ => rw [e1] at e3; obtain rfl := Option.some.inj e3; rw [e2] at e4; simp at e4
  | child e1 e2 _ ih =>
    cases h' with
    | root e3 e4 => rw [e1] at e3; obtain rfl := Option.some.inj e3; rw [e2] at e4; simp at e4
    | child e3 e4 h =>
      rw [e1] at e3
      obtain rfl := Option.some.inj e3
      rw [e2] at e4
      obtain rfl := Option.some.inj e4
      rw [ih h]

/-- The node `p` has a child with value `v`. -/
def HasChild (f : Forest) (p v : Nat) : Prop := ∃ (c : Nat) (nc : Node), f.nodes[c]? = some nc ∧ nc.parent = some p ∧ nc.value = v

structure WF (n : Nat) (adj : List (List Nat)) (f : Forest) : Prop where
  root : ∀ (i : Nat) nd, f.nodes[i]? = some nd → nd.parent = none → nd.level = 0 ∧ nd.value < n
  child : ∀ (i : Nat) nd q, f.nodes[i]? = some nd → nd.parent = some q → q < i ∧ ∃ nq P, f.nodes[q]? = some nq ∧ nd.level = nq.level + 1 ∧ Path f q P ∧
    ChildOk adj P nd.value
  succ : ∀ (i : Nat) nd s, f.nodes[i]? = some nd → nd.succ = some s → i < s ∧ ∃ ns, f.nodes[s]? = some ns ∧ ns.level = nd.level
  anchor : ∀ (l : Nat) a, f.anchors[l]? = some a → ∃ na, f.nodes[a]? = some na ∧ na.level = l
  level : ∀ (i : Nat) nd, f.nodes[i]? = some nd → nd.level < f.anchors.length
  anchors_le : f.anchors.length ≤ f.nodes.length
  children : ∀ (i : Nat) nd c, f.nodes[i]? = some nd → c ∈ nd.children → ∃ nc, f.nodes[c]? = some nc ∧ nc.parent = some i
  closed : ∀ (c : Nat) nc p P v, f.nodes[c]? = some nc → nc.parent = some p → Path f p P → ChildOk adj P v → v < nc.value → HasChild f p v

theorem wf_empty (n : Nat) (adj : List (List Nat)) : WF n adj Forest.empty := by
  refine ⟨?_, ?_, ?_, ?_, ?_, ?_, ?_, ?_⟩ <;> simp [Forest.empty]

variable {n : Nat} {adj : List (List Nat)}

theorem WF.path {f : Forest} (h : WF n adj f) {i : Nat} {nd : Node} (hi : f.nodes[i]? = some nd) : ∃ P, Path f i P := by
  cases e : nd.parent with
  | none => exact ⟨_, .root hi e⟩
  | some q =>
    obtain ⟨_, _, P, _, _, hP, _⟩ := h.child i nd q hi e
    exact ⟨_, .child hi e hP⟩

theorem WF.path_spec {f : Forest} (h : WF n adj f) {i : Nat} {P : List Nat} (hP : Path f i P) :
    Canon n adj P ∧ ∃ nd, f.nodes[i]? = some nd ∧ P.length = nd.level + 1 ∧ P.getLast? = some nd.value := by
  induction hP with
  | root e1 e2 =>
    obtain ⟨h1, h2⟩ := h.root _ _ e1 e2
    exact ⟨.single h2, _, e1, by simp [h1], by simp⟩
  | @child i nd q P e1 e2 hq ih =>
    obtain ⟨h1, nq, P', h2, h3, h4, h5⟩ := h.child _ _ _ e1 e2
    obtain rfl := hq.unique h4
    obtain ⟨i1, nq', i2, i3, _⟩ := ih
    rw [h2] at i2
    obtain rfl := Option.some.inj i2
    exact ⟨.snoc i1 h5, _, e1, by simp [i3, h3], by simp⟩

theorem pathUp_spec {f : Forest} (h : WF n adj f) {i : Nat} {P : List Nat} (hP : Path f i P) : ∀ fuel, i < fuel → f.pathUp fuel (some i) = some P.reverse := by
  induction hP with
  | root e1 e2 =>
    intro fuel hf
    obtain ⟨k, rfl⟩ : ∃ k, fuel = k + 1 := ⟨fuel - 1, by omega⟩
    unfold Forest.pathUp
    rw [e1]
    simp only
    rw [e2]
    cases k <;> simp [Forest.pathUp]
  | child e1 e2 _ ih =>
    intro fuel hf
    obtain ⟨k, rfl⟩ : ∃ k, fuel = k + 1 := ⟨fuel - 1, by omega⟩
    have := (h.child _ _ _ e1 e2).1
    unfold Forest.pathUp
    rw [e1]
    simp only
    rw [e2, ih k (by omega)]
    simp

theorem path_lt {f : Forest} {i : Nat} {P : List Nat} (hP : Path f i P) : i < f.nodes.length := by
  cases hP with
  | root e _ => exact (List.getElem?_eq_some_iff.mp e).1
  | child e _ _ => exact (List.getElem?_eq_some_iff.mp e).1

theorem pathUp_nodes {f : Forest} (h : WF n adj f) {i : Nat} {P : List Nat} (hP : Path f i P) : f.pathUp f.nodes.length (some i) = some P.reverse :=
  pathUp_spec h hP _ (path_lt hP)

theorem pathFor_length {f : Forest} {i : Nat} {P : List Nat} (hP : Path f i P) : f.pathFor P.length (some i) = some P.reverse := by
  induction hP with
  | root e1 e2 =>
    simp only [List.length_singleton]
    unfold Forest.pathFor
    rw [e1]
    simp [Forest.pathFor]
  | child e1 e2 _ ih =>
    rw [List.length_append, List.length_singleton]
    unfold Forest.pathFor
    rw [e1]
    simp only
    rw [e2, ih]
    simp

theorem pathFor_spec {f : Forest} (h : WF n adj f) {i : Nat} {P : List Nat} (hP : Path f i P) {nd : Node} (hi : f.nodes[i]? = some nd) :
    f.pathFor (nd.level + 1) (some i) = some P.reverse := by
  obtain ⟨_, nd', h1, h2, _⟩ := h.path_spec hP
  rw [hi] at h1
  obtain rfl := Option.some.inj h1
  rw [← h2]
  exact pathFor_length hP

/-! ### the choice of the variable to append -/

theorem connected_nb (ha : AdjOk n adj) {u v : Nat} (hu : u < n) (hv : v < n) : connected adj u v = some (open Classical in decide (Nb adj u v)) := by
  obtain ⟨b, h1, h2⟩ := connected_spec ha hu hv
  rw [h1]
  congr 1
  rw [Bool.eq_iff_iff, h2]
  simp

theorem cheaper_spec (ha : AdjOk n adj) {c : Nat} (hc : c < n) : ∀ P : List Nat, (∀ v ∈ P, v < n) →
    ∃ b, cheaper adj c P = some b ∧ (b = true ↔ ∃ A u B, P = A ++ u :: B ∧ Nb adj u c ∧ ∃ w ∈ B, c < w)
  | [], _ => ⟨false, rfl, by simp⟩
  | [a], _ => by
    refine ⟨false, rfl, ?_⟩
    simp only [Bool.false_eq_true, false_iff]
    rintro ⟨A, u, B, e, _, w, hw, _⟩
    have := congrArg List.length e
    simp at this
    have : B = [] := List.length_eq_zero_iff.mp (by omega)
    subst this
    simp at hw
  | a :: b :: rest, h => by
    obtain ⟨r, h1, h2⟩ := connected_spec ha (h a (by simp)) hc
    obtain ⟨r', h3, h4⟩ := cheaper_spec ha hc (b :: rest) (fun v hv => h v (by simp [List.mem_cons.mp hv]))
    have hsplit : (∃ A u B, a :: b :: rest = A ++ u :: B ∧ Nb adj u c ∧ ∃ w ∈ B, c < w) ↔
        (Nb adj a c ∧ ∃ w ∈ b :: rest, c < w) ∨ ∃ A u B, b :: rest = A ++ u :: B ∧ Nb adj u c ∧ ∃ w ∈ B, c < w := by
      constructor
      · rintro ⟨A, u, B, e, h5, h6⟩
        cases A with
        | nil =>
          simp only [List.nil_append, List.cons.injEq] at e
          obtain ⟨rfl, rfl⟩ := e
          exact .inl ⟨h5, h6⟩
        | cons a' A =>
          simp only [List.cons_append, List.cons.injEq] at e
          exact .inr ⟨A, u, B, e.2, h5, h6⟩
      · rintro (⟨h5, h6⟩ | ⟨A, u, B, e, h5, h6⟩)
        · exact ⟨[], a, b :: rest, rfl, h5, h6⟩
        · exact ⟨a :: A, u, B, by rw [e]; rfl, h5, h6⟩
    rw [hsplit, ← h4]
    simp only [cheaper]
    rw [h1]
    cases r with
    | false =>
      have : ¬ Nb adj a c := fun h => by simpa using h2.mpr h
      exact ⟨r', h3, by simp [this]⟩
    | true =>
      have hnb := h2.mp rfl
      simp only
      by_cases hw : (b :: rest).any (fun w => decide (c < w)) = true
      · rw [if_pos hw]
        rw [List.any_eq_true] at hw
        obtain ⟨w, hw1, hw2⟩ := hw
        exact ⟨true, rfl, by simp only [true_iff]; exact .inl ⟨hnb, w, hw1, by simpa using hw2⟩⟩
      · rw [if_neg hw]
        refine ⟨r', h3, ?_⟩
        have : ¬ ∃ w ∈ b :: rest, c < w := by
          rintro ⟨w, hw1, hw2⟩
          exact hw (List.any_eq_true.mpr ⟨w, hw1, by simpa using hw2⟩)
        constructor
        · exact .inr
        · rintro (⟨_, h⟩ | h)
          · exact absurd h this
          · exact h

theorem foldl_max_le (rest : List Nat) (m : Nat) : m ≤ rest.foldl max m ∧ ∀ w ∈ rest, w ≤ rest.foldl max m := by
  induction rest generalizing m with
  | nil => simp
  | cons a rest ih =>
    simp only [List.foldl_cons]
    obtain ⟨h1, h2⟩ := ih (max m a)
    exact ⟨le_trans (le_max_left _ _) h1, by
      intro w hw
      rcases List.mem_cons.mp hw with rfl | hw
      · exact le_trans (le_max_right _ _) h1
      · exact h2 w hw⟩

theorem selectCandidate_spec (ha : AdjOk n adj) {v0 : Nat} {rest : List Nat} (hP : ∀ v ∈ v0 :: rest, v < n) {minVI : Nat} (hmin : v0 ≤ minVI) :
    ∀ cs : List Nat, cs.Pairwise (· < ·) → (∀ c ∈ cs, ∃ u ∈ v0 :: rest, Nb adj u c) →
    (selectCandidate adj (v0 :: rest) minVI (rest.foldl max v0) cs = some none ∧ ∀ c ∈ cs, ChildOk adj (v0 :: rest) c → c ≤ minVI) ∨
    (∃ c ∈ cs, selectCandidate adj (v0 :: rest) minVI (rest.foldl max v0) cs = some (some c) ∧ ChildOk adj (v0 :: rest) c ∧ minVI < c ∧
      ∀ c' ∈ cs, ChildOk adj (v0 :: rest) c' → c' < c → c' ≤ minVI)
  | [], _, _ => .inl ⟨rfl, by simp⟩
  | c :: cs, hs, hnb => by
    rw [List.pairwise_cons] at hs
    have ih := selectCandidate_spec ha hP hmin cs hs.2 (fun c hc => hnb c (by simp [hc]))
    have hmax := foldl_max_le rest v0
    have hskip : (ChildOk adj (v0 :: rest) c → c ≤ minVI) →
        selectCandidate adj (v0 :: rest) minVI (rest.foldl max v0) (c :: cs) = selectCandidate adj (v0 :: rest) minVI (rest.foldl max v0) cs →
        (selectCandidate adj (v0 :: rest) minVI (rest.foldl max v0) (c :: cs) = some none ∧ ∀ c' ∈ c :: cs, ChildOk adj (v0 :: rest) c' → c' ≤ minVI) ∨
        (∃ c' ∈ c :: cs, selectCandidate adj (v0 :: rest) minVI (rest.foldl max v0) (c :: cs) = some (some c') ∧ ChildOk adj (v0 :: rest) c' ∧ minVI < c' ∧
          ∀ c'' ∈ c :: cs, ChildOk adj (v0 :: rest) c'' → c'' < c' → c'' ≤ minVI) := by
      intro hno e
      rw [e]
      rcases ih with ⟨h1, h2⟩ | ⟨c', h1, h2, h3, h4, h5⟩
      · refine .inl ⟨h1, ?_⟩
        intro c' hc'
        rcases List.mem_cons.mp hc' with rfl | hc'
        · exact hno
        · exact h2 c' hc'
      · refine .inr ⟨c', by simp [h1], h2, h3, h4, ?_⟩
        intro c'' hc''
        rcases List.mem_cons.mp hc'' with rfl | hc''
        · exact fun h _ => hno h
        · exact h5 c'' hc''
    have htake : c > minVI → c ∉ v0 :: rest → (∀ A u B, v0 :: rest = A ++ u :: B → Nb adj u c → ∀ w ∈ B, w < c) →
        selectCandidate adj (v0 :: rest) minVI (rest.foldl max v0) (c :: cs) = some (some c) →
        (selectCandidate adj (v0 :: rest) minVI (rest.foldl max v0) (c :: cs) = some none ∧ ∀ c' ∈ c :: cs, ChildOk adj (v0 :: rest) c' → c' ≤ minVI) ∨
        (∃ c' ∈ c :: cs, selectCandidate adj (v0 :: rest) minVI (rest.foldl max v0) (c :: cs) = some (some c') ∧ ChildOk adj (v0 :: rest) c' ∧ minVI < c' ∧
          ∀ c'' ∈ c :: cs, ChildOk adj (v0 :: rest) c'' → c'' < c' → c'' ≤ minVI) := by
      intro h1 h2 h3 e
      refine .inr ⟨c, by simp, e, ⟨hnb c (by simp), h2, ?_, h3⟩, h1, ?_⟩
      · intro h hh
        simp only [List.head?_cons, Option.some.injEq] at hh
        omega
      · intro c'' hc'' _ hlt
        rcases List.mem_cons.mp hc'' with rfl | hc''
        · omega
        · have := hs.1 c'' hc''
          omega
    have hcn : c < n := by
      obtain ⟨u, _, hu⟩ := hnb c (by simp)
      exact ha.range u c hu
    by_cases hcond : c > minVI ∧ c ∉ v0 :: rest
    · by_cases hgt : c > rest.foldl max v0
      · apply htake hcond.1 hcond.2
        · intro A u B e _ w hw
          have hw' : w ∈ v0 :: rest := by rw [e]; simp [hw]
          rcases List.mem_cons.mp hw' with rfl | hw'
          · omega
          · have := hmax.2 w hw'
            omega
        · simp only [selectCandidate]
          rw [if_pos hcond, if_pos hgt]
      · obtain ⟨b, h1, h2⟩ := cheaper_spec ha hcn (v0 :: rest) hP
        cases b with
        | false =>
          apply htake hcond.1 hcond.2
          · intro A u B e hu w hw
            by_contra hlt
            have hne : w ≠ c := by
              rintro rfl
              exact hcond.2 (by rw [e]; simp [hw])
            have := h2.mpr ⟨A, u, B, e, hu, w, hw, by omega⟩
            simp at this
          · simp only [selectCandidate]
            rw [if_pos hcond, if_neg hgt, h1]
        | true =>
          apply hskip
          · intro hok
            obtain ⟨A, u, B, e, hu, w, hw, hlt⟩ := h2.mp rfl
            have := hok.late A u B e hu w hw
            omega
          · simp only [selectCandidate]
            rw [if_pos hcond, if_neg hgt, h1]
    · apply hskip
      · intro hok
        by_contra hlt
        exact hcond ⟨by omega, hok.new⟩
      · simp only [selectCandidate]
        rw [if_neg hcond]

theorem candidates_spec (ha : AdjOk n adj) : ∀ (vs set : List Nat), set.Pairwise (· < ·) → (∀ v ∈ vs, v < n) →
    ∃ cs, candidates adj vs set = some cs ∧ cs.Pairwise (· < ·) ∧ ∀ c, c ∈ cs ↔ c ∈ set ∨ ∃ v ∈ vs, Nb adj v c
  | [], set, hs, _ => ⟨set, rfl, hs, by simp⟩
  | v :: vs, set, hs, hv => by
    have hl : v < adj.length := by rw [ha.length]; exact hv v (by simp)
    obtain ⟨u1, u2⟩ := Movemaker.setUnion_spec set adj[v] hs
    obtain ⟨cs, h1, h2, h3⟩ := candidates_spec ha vs _ u1 (fun w hw => hv w (by simp [hw]))
    refine ⟨cs, ?_, h2, ?_⟩
    · unfold candidates
      rw [List.getElem?_eq_getElem hl]
      exact h1
    · intro c
      rw [h3, u2]
      have : Nb adj v c ↔ c ∈ adj[v] := by
        unfold Nb
        rw [List.getElem?_eq_getElem hl]
        simp
      simp only [List.mem_cons, exists_eq_or_imp, this]
      generalize (∃ a ∈ vs, Nb adj a c) = X
      tauto

/-! ### the operations on the forest -/

/-- The forest with one more node. -/
structure Pushed (f f' : Forest) (par : Option Nat) (v lev : Nat) : Prop where
  len : f'.nodes.length = f.nodes.length + 1
  new : f'.nodes[f.nodes.length]? = some ⟨v, par, [], lev, none⟩
  old : ∀ (i : Nat) nd, f.nodes[i]? = some nd → f'.nodes[i]? = some { nd with children := if some i = par then nd.children ++ [f.nodes.length] else nd.children }
  anchors : f'.anchors = if f.anchors.length ≤ lev then f.anchors ++ [f.nodes.length] else f.anchors

theorem pushBack_root (f : Forest) (v : Nat) : ∃ f', f.pushBack v none = some (f.nodes.length, f') ∧ Pushed f f' none v 0 := by
  refine ⟨_, rfl, ⟨by simp, by simp, ?_, rfl⟩⟩
  intro i nd h
  simp only
  rw [List.getElem?_append_left (List.getElem?_eq_some_iff.mp h).1, h]
  simp

theorem pushBack_child {f : Forest} {p : Nat} {np : Node} (hp : f.nodes[p]? = some np) (v : Nat) :
    ∃ f', f.pushBack v (some p) = some (f.nodes.length, f') ∧ Pushed f f' (some p) v (np.level + 1) := by
  have hl := (List.getElem?_eq_some_iff.mp hp).1
  unfold Forest.pushBack
  simp only
  rw [hp]
  refine ⟨_, rfl, ⟨by simp, ?_, ?_, rfl⟩⟩
  · simp
  · intro i nd h
    have hi := (List.getElem?_eq_some_iff.mp h).1
    simp only
    rw [List.getElem?_append_left (by simpa using hi)]
    by_cases e : i = p
    · subst e
      rw [List.getElem?_set_self hl]
      rw [hp] at h
      obtain rfl := Option.some.inj h
      simp
    · rw [List.getElem?_set_ne (fun e' => e e'.symm), h]
      simp [e]

theorem Pushed.cases {f f' : Forest} {par : Option Nat} {v lev : Nat} (h : Pushed f f' par v lev) {i : Nat} {nd' : Node} (hi : f'.nodes[i]? = some nd') :
    (i = f.nodes.length ∧ nd' = ⟨v, par, [], lev, none⟩) ∨
    (i < f.nodes.length ∧ ∃ nd, f.nodes[i]? = some nd ∧ nd' = { nd with children := if some i = par then nd.children ++ [f.nodes.length] else nd.children }) := by
  have hl := (List.getElem?_eq_some_iff.mp hi).1
  rw [h.len] at hl
  rcases Nat.lt_or_ge i f.nodes.length with hlt | hge
  · right
    refine ⟨hlt, f.nodes[i], List.getElem?_eq_getElem hlt, ?_⟩
    have := h.old i _ (List.getElem?_eq_getElem hlt)
    rw [hi] at this
    exact Option.some.inj this
  · left
    have : i = f.nodes.length := by omega
    subst this
    rw [h.new] at hi
    exact ⟨rfl, (Option.some.inj hi).symm⟩

/-- Nodes keep value, parent and level. -/
def Ext (f f' : Forest) : Prop := ∀ (i : Nat) nd, f.nodes[i]? = some nd → ∃ nd', f'.nodes[i]? = some nd' ∧ nd'.value = nd.value ∧ nd'.parent = nd.parent ∧ nd'.level = nd.level

theorem Ext.refl (f : Forest) : Ext f f := fun _ nd h => ⟨nd, h, rfl, rfl, rfl⟩

theorem Ext.trans {f g h : Forest} (h1 : Ext f g) (h2 : Ext g h) : Ext f h := by
  intro i nd e
  obtain ⟨nd1, a1, a2, a3, a4⟩ := h1 i nd e
  obtain ⟨nd2, b1, b2, b3, b4⟩ := h2 i nd1 a1
  exact ⟨nd2, b1, by rw [b2, a2], by rw [b3, a3], by rw [b4, a4]⟩

theorem Pushed.ext {f f' : Forest} {par : Option Nat} {v lev : Nat} (h : Pushed f f' par v lev) : Ext f f' :=
  fun i nd e => ⟨_, h.old i nd e, rfl, rfl, rfl⟩

theorem Ext.path {f f' : Forest} (h : Ext f f') {i : Nat} {P : List Nat} (hP : Path f i P) : Path f' i P := by
  induction hP with
  | root e1 e2 =>
    obtain ⟨nd', a1, a2, a3, _⟩ := h _ _ e1
    rw [← a2]
    exact .root a1 (by rw [a3, e2])
  | child e1 e2 _ ih =>
    obtain ⟨nd', a1, a2, a3, _⟩ := h _ _ e1
    rw [← a2]
    exact .child a1 (by rw [a3, e2]) ih

theorem Ext.hasChild {f f' : Forest} (h : Ext f f') {p v : Nat} (hc : HasChild f p v) : HasChild f' p v := by
  obtain ⟨c, nc, h1, h2, h3⟩ := hc
  obtain ⟨nd', a1, a2, a3, _⟩ := h _ _ h1
  exact ⟨c, nd', a1, by rw [a3, h2], by rw [a2, h3]⟩

/-- A path in the larger forest to an old node is a path in the old one. -/
theorem Ext.path_old {f f' : Forest} (hw : WF n adj f) (h : Ext f f') {i : Nat} {P : List Nat} (hi : i < f.nodes.length) (hP : Path f' i P) : Path f i P := by
  obtain ⟨Q, hQ⟩ := hw.path (List.getElem?_eq_getElem hi)
  rw [hP.unique (h.path hQ)]
  exact hQ

theorem Pushed.wf {f f' : Forest} {par : Option Nat} {v lev : Nat} (h : Pushed f f' par v lev) (hw : WF n adj f)
    (hroot : par = none → lev = 0 ∧ v < n)
    (hchild : ∀ p, par = some p → ∃ np P, f.nodes[p]? = some np ∧ lev = np.level + 1 ∧ Path f p P ∧ ChildOk adj P v ∧
      ∀ v', ChildOk adj P v' → v' < v → HasChild f p v') : WF n adj f' := by
  have hext := h.ext
  have hlev : lev ≤ f.anchors.length := by
    cases hpar : par with
    | none => rw [(hroot hpar).1]; omega
    | some p =>
      obtain ⟨np, _, h1, h2, _⟩ := hchild p hpar
      have := hw.level p np h1
      omega
  have halen : f.anchors.length ≤ f'.anchors.length := by rw [h.anchors]; split <;> simp
  refine ⟨?_, ?_, ?_, ?_, ?_, ?_, ?_, ?_⟩
  · intro i nd hi hp
    rcases h.cases hi with ⟨rfl, rfl⟩ | ⟨_, nd0, h1, rfl⟩
    · exact hroot hp
    · exact hw.root i nd0 h1 hp
  · intro i nd q hi hp
    rcases h.cases hi with ⟨rfl, rfl⟩ | ⟨_, nd0, h1, rfl⟩
    · obtain ⟨np, P, a1, a2, a3, a4, _⟩ := hchild q hp
      exact ⟨(List.getElem?_eq_some_iff.mp a1).1, _, P, h.old q np a1, a2, hext.path a3, a4⟩
    · obtain ⟨a1, nq, P, a2, a3, a4, a5⟩ := hw.child i nd0 q h1 hp
      exact ⟨a1, _, P, h.old q nq a2, a3, hext.path a4, a5⟩
  · intro i nd s hi hs
    rcases h.cases hi with ⟨rfl, rfl⟩ | ⟨_, nd0, h1, rfl⟩
    · simp at hs
    · obtain ⟨a1, ns, a2, a3⟩ := hw.succ i nd0 s h1 hs
      exact ⟨a1, _, h.old s ns a2, a3⟩
  · intro l a ha
    rw [h.anchors] at ha
    have hold : f.anchors[l]? = some a → ∃ na, f'.nodes[a]? = some na ∧ na.level = l := by
      intro ha
      obtain ⟨na, h1, h2⟩ := hw.anchor l a ha
      exact ⟨_, h.old a na h1, h2⟩
    split at ha
    · next hle =>
      have hl := (List.getElem?_eq_some_iff.mp ha).1
      rw [List.length_append, List.length_singleton] at hl
      rcases Nat.lt_or_ge l f.anchors.length with hlt | hge
      · rw [List.getElem?_append_left hlt] at ha
        exact hold ha
      · have : l = f.anchors.length := by omega
        subst this
        simp at ha
        subst ha
        exact ⟨_, h.new, by simp only; omega⟩
    · exact hold ha
  · intro i nd hi
    rcases h.cases hi with ⟨rfl, rfl⟩ | ⟨_, nd0, h1, rfl⟩
    · rw [h.anchors]
      simp only
      split
      · rw [List.length_append, List.length_singleton]; omega
      · omega
    · exact lt_of_lt_of_le (hw.level i nd0 h1) halen
  · have := hw.anchors_le
    rw [h.anchors, h.len]
    split
    · rw [List.length_append, List.length_singleton]; omega
    · omega
  · intro i nd c hi hc
    rcases h.cases hi with ⟨rfl, rfl⟩ | ⟨_, nd0, h1, rfl⟩
    · simp at hc
    · have hold : c ∈ nd0.children → ∃ nc, f'.nodes[c]? = some nc ∧ nc.parent = some i := by
        intro hc
        obtain ⟨nc, a1, a2⟩ := hw.children i nd0 c h1 hc
        exact ⟨_, h.old c nc a1, a2⟩
      simp only at hc
      split at hc
      · next e =>
        rw [List.mem_append, List.mem_singleton] at hc
        rcases hc with hc | rfl
        · exact hold hc
        · exact ⟨_, h.new, e.symm⟩
      · exact hold hc
  · intro c nc p P v' hc hp hP hok hlt
    have hpl : p < f.nodes.length := by
      rcases h.cases hc with ⟨rfl, rfl⟩ | ⟨hcl, nd0, h1, rfl⟩
      · obtain ⟨np, _, a1, _⟩ := hchild p hp
        exact (List.getElem?_eq_some_iff.mp a1).1
      · have := (hw.child c nd0 p h1 hp).1
        omega
    have hP' := hext.path_old hw hpl hP
    apply hext.hasChild
    rcases h.cases hc with ⟨rfl, rfl⟩ | ⟨_, nd0, h1, rfl⟩
    · obtain ⟨np, P', _, _, a3, _, a5⟩ := hchild p hp
      obtain rfl := hP'.unique a3
      exact a5 v' hok hlt
    · exact hw.closed c nd0 p P v' h1 hp hP' hok hlt

theorem appendVariable_spec (ha : AdjOk n adj) {f : Forest} (hw : WF n adj f) {p : Nat} {nd : Node} (hp : f.nodes[p]? = some nd) {P : List Nat}
    (hP : Path f p P) :
    (appendVariable adj f p = some none ∧ ∀ v, ChildOk adj P v → HasChild f p v) ∨
    (∃ v f', appendVariable adj f p = some (some (f.nodes.length, f')) ∧ Pushed f f' (some p) v (nd.level + 1) ∧ ChildOk adj P v ∧
      (∀ v', ChildOk adj P v' → v' < v → HasChild f p v') ∧
      ∀ (c : Nat) nc, nd.children.getLast? = some c → f.nodes[c]? = some nc → nc.value < v) := by
  obtain ⟨hcan, nd', e1, _, _⟩ := hw.path_spec hP
  rw [hp] at e1
  obtain rfl := Option.some.inj e1
  obtain ⟨hnd, hlt, hne⟩ := hcan.props ha
  obtain ⟨v0, rest, rfl⟩ : ∃ v0 rest, P = v0 :: rest := by cases P with | nil => exact absurd rfl hne | cons a l => exact ⟨a, l, rfl⟩
  obtain ⟨cs, c1, c2, c3⟩ := candidates_spec ha (v0 :: rest).reverse [] (by simp) (fun v hv => hlt v (List.mem_reverse.mp hv))
  have hnbcs : ∀ c, c ∈ cs ↔ ∃ u ∈ v0 :: rest, Nb adj u c := by
    intro c
    rw [c3]
    simp only [List.not_mem_nil, false_or, List.mem_reverse]
  have hb : ∃ minVI, appendBound f nd v0 = some minVI ∧ v0 ≤ minVI ∧
      (∀ v, ChildOk adj (v0 :: rest) v → v ≤ minVI → HasChild f p v) ∧ ∀ (c : Nat) nc, nd.children.getLast? = some c → f.nodes[c]? = some nc → nc.value ≤ minVI := by
    unfold appendBound
    cases hl : nd.children.getLast? with
    | none =>
      refine ⟨v0, rfl, le_refl _, ?_, by simp⟩
      intro v hok hle
      have := hok.head v0 rfl
      omega
    | some c =>
      obtain ⟨nc, a1, a2⟩ := hw.children p nd c hp (List.mem_of_getLast? hl)
      obtain ⟨_, _, P', _, _, b3, b4⟩ := hw.child c nc p a1 a2
      obtain rfl := hP.unique b3
      refine ⟨nc.value, by simp [a1], ?_, ?_, ?_⟩
      · have := b4.head v0 rfl
        omega
      · intro v hok hle
        rcases Nat.lt_or_ge v nc.value with h | h
        · exact hw.closed c nc p _ v a1 a2 hP hok h
        · exact ⟨c, nc, a1, a2, by omega⟩
      · intro c' nc' e1 e2
        obtain rfl := Option.some.inj e1
        rw [a1] at e2
        obtain rfl := Option.some.inj e2
        exact le_refl _
  obtain ⟨minVI, m1, m2, m3, m4⟩ := hb
  have hunf : appendVariable adj f p = match selectCandidate adj (v0 :: rest) minVI (rest.foldl max v0) cs with
          | none => none
          | some none => some none
          | some (some c) =>
            match f.pushBack c (some p) with
            | none => none
            | some r => some (some r) := by
    unfold appendVariable
    rw [hp]
    simp only
    rw [pathFor_spec hw hP hp, pathUp_nodes hw hP]
    simp only [List.reverse_reverse]
    rw [m1, c1]
    rfl
  rw [hunf]
  rcases selectCandidate_spec ha hlt m2 cs c2 (fun c hc => (hnbcs c).mp hc) with ⟨h1, h2⟩ | ⟨c, _, h2, h3, h4, h5⟩
  · left
    rw [h1]
    exact ⟨rfl, fun v hok => m3 v hok (h2 v ((hnbcs v).mpr hok.nb) hok)⟩
  · right
    obtain ⟨f', g1, g2⟩ := pushBack_child hp c
    refine ⟨c, f', ?_, g2, h3, ?_, ?_⟩
    · rw [h2]
      simp only
      rw [g1]
    · intro v' hok hlt'
      exact m3 v' hok (h5 v' ((hnbcs v').mpr hok.nb) hok hlt')
    · intro c' nc hc' hnc
      have := m4 c' nc hc' hnc
      omega

/-- Nothing can be appended to the node. -/
def Exhausted (adj : List (List Nat)) (f : Forest) (i : Nat) : Prop := ∀ P v, Path f i P → ChildOk adj P v → HasChild f i v

theorem Ext.exhausted {f f' : Forest} (hw : WF n adj f) (h : Ext f f') {i : Nat} (hi : i < f.nodes.length) (he : Exhausted adj f i) : Exhausted adj f' i :=
  fun _ v hP hok => h.hasChild (he _ v (h.path_old hw hi hP) hok)

/-- The nodes reached by the pointers to successors. -/
inductive Chain (f : Forest) : Nat → Nat → Prop
  | refl {i} : Chain f i i
  | step {i nd j k} : f.nodes[i]? = some nd → nd.succ = some j → Chain f j k → Chain f i k

theorem Chain.le {f : Forest} (hw : WF n adj f) {i k : Nat} (h : Chain f i k) : i ≤ k := by
  induction h with
  | refl => exact le_refl _
  | step e1 e2 _ ih =>
    have := (hw.succ _ _ _ e1 e2).1
    omega

theorem appendLoop_spec (ha : AdjOk n adj) {f : Forest} (hw : WF n adj f) : ∀ (fuel p : Nat) (nd : Node), f.nodes[p]? = some nd → f.nodes.length ≤ p + fuel →
    (appendLoop adj f fuel (some p) = some none ∧ ∀ i, Chain f p i → Exhausted adj f i) ∨
    (∃ (p' : Nat) (np : Node) (v : Nat) (P : List Nat) (f' : Forest), appendLoop adj f fuel (some p) = some (some (f.nodes.length, f')) ∧ f.nodes[p']? = some np ∧ np.level = nd.level ∧ p ≤ p' ∧
      Path f p' P ∧ Pushed f f' (some p') v (np.level + 1) ∧ ChildOk adj P v ∧ (∀ v', ChildOk adj P v' → v' < v → HasChild f p' v') ∧
      (∀ (c : Nat) nc, np.children.getLast? = some c → f.nodes[c]? = some nc → nc.value < v) ∧
      ∀ i, Chain f p i → i < p' → Exhausted adj f i)
  | 0, p, nd, hp, hf => by
    have := (List.getElem?_eq_some_iff.mp hp).1
    omega
  | fuel + 1, p, nd, hp, hf => by
    obtain ⟨P, hP⟩ := hw.path hp
    rcases appendVariable_spec ha hw hp hP with ⟨h1, h2⟩ | ⟨v, f', h1, h2, h3, h4, h5⟩
    · have hex : Exhausted adj f p := by
        intro P' v hP' hok
        rw [hP'.unique hP] at hok
        exact h2 v hok
      simp only [appendLoop]
      rw [h1, hp]
      simp only
      cases hs : nd.succ with
      | none =>
        left
        refine ⟨by cases fuel <;> rfl, ?_⟩
        intro i hi
        cases hi with
        | refl => exact hex
        | step e1 e2 _ =>
          rw [hp] at e1
          obtain rfl := Option.some.inj e1
          rw [hs] at e2
          simp at e2
      | some s =>
        obtain ⟨s1, ns, s2, s3⟩ := hw.succ p nd s hp hs
        have hchain : ∀ i, Chain f p i → i = p ∨ Chain f s i := by
          intro i hi
          cases hi with
          | refl => exact .inl rfl
          | step e1 e2 h =>
            rw [hp] at e1
            obtain rfl := Option.some.inj e1
            rw [hs] at e2
            obtain rfl := Option.some.inj e2
            exact .inr h
        rcases appendLoop_spec ha hw fuel s ns s2 (by omega) with ⟨i1, i2⟩ | ⟨p', np, v, P', f', i1, i2, i3, i4, i5, i6, i7, i8, i9, i10⟩
        · left
          refine ⟨i1, ?_⟩
          intro i hi
          rcases hchain i hi with rfl | hi
          · exact hex
          · exact i2 i hi
        · right
          refine ⟨p', np, v, P', f', i1, i2, by rw [i3, s3], by omega, i5, i6, i7, i8, i9, ?_⟩
          intro i hi hlt
          rcases hchain i hi with rfl | hi
          · exact hex
          · exact i10 i hi hlt
    · right
      refine ⟨p, nd, v, P, f', ?_, hp, rfl, le_refl _, hP, h2, h3, h4, h5, ?_⟩
      · simp only [appendLoop]
        rw [h1]
      · intro i hi hlt
        have := hi.le hw
        omega

/-- The forest with a pointer to the successor of `i`. -/
structure Linked (f f' : Forest) (i s : Nat) : Prop where
  len : f'.nodes.length = f.nodes.length
  anchors : f'.anchors = f.anchors
  at_ : ∀ nd, f.nodes[i]? = some nd → f'.nodes[i]? = some { nd with succ := some s }
  other : ∀ j, j ≠ i → f'.nodes[j]? = f.nodes[j]?

theorem setSuccessor_spec {f : Forest} {i : Nat} {nd : Node} (h : f.nodes[i]? = some nd) (s : Nat) : ∃ f', f.setSuccessor i s = some f' ∧ Linked f f' i s := by
  have hl := (List.getElem?_eq_some_iff.mp h).1
  unfold Forest.setSuccessor
  rw [h]
  refine ⟨_, rfl, ⟨by simp, rfl, ?_, ?_⟩⟩
  · intro nd' h'
    rw [h] at h'
    obtain rfl := Option.some.inj h'
    simp only
    rw [List.getElem?_set_self hl]
  · intro j hj
    simp only
    rw [List.getElem?_set_ne (fun e => hj e.symm)]

theorem Linked.cases {f f' : Forest} {i s : Nat} (h : Linked f f' i s) {j : Nat} {nd' : Node} (hj : f'.nodes[j]? = some nd') :
    (j = i ∧ ∃ nd, f.nodes[i]? = some nd ∧ nd' = { nd with succ := some s }) ∨ (j ≠ i ∧ f.nodes[j]? = some nd') := by
  by_cases e : j = i
  · subst e
    left
    have hl := (List.getElem?_eq_some_iff.mp hj).1
    rw [h.len] at hl
    refine ⟨rfl, f.nodes[j], List.getElem?_eq_getElem hl, ?_⟩
    have := h.at_ _ (List.getElem?_eq_getElem hl)
    rw [hj] at this
    exact Option.some.inj this
  · right
    rw [h.other j e] at hj
    exact ⟨e, hj⟩

theorem Linked.ext {f f' : Forest} {i s : Nat} (h : Linked f f' i s) : Ext f f' := by
  intro j nd hj
  by_cases e : j = i
  · subst e
    exact ⟨_, h.at_ nd hj, rfl, rfl, rfl⟩
  · exact ⟨nd, by rw [h.other j e]; exact hj, rfl, rfl, rfl⟩

theorem Linked.ext' {f f' : Forest} {i s : Nat} (h : Linked f f' i s) : Ext f' f := by
  intro j nd hj
  rcases h.cases hj with ⟨rfl, nd0, h1, rfl⟩ | ⟨_, h1⟩
  · exact ⟨nd0, h1, rfl, rfl, rfl⟩
  · exact ⟨nd, h1, rfl, rfl, rfl⟩

theorem Linked.wf {f f' : Forest} {i s : Nat} (h : Linked f f' i s) (hw : WF n adj f)
    (hs : ∀ nd, f.nodes[i]? = some nd → i < s ∧ ∃ ns, f.nodes[s]? = some ns ∧ ns.level = nd.level) : WF n adj f' := by
  have hx := h.ext
  have hx' := h.ext'
  refine ⟨?_, ?_, ?_, ?_, ?_, ?_, ?_, ?_⟩
  · intro j nd hj hp
    obtain ⟨nd0, a1, a2, a3, a4⟩ := hx' j nd hj
    have := hw.root j nd0 a1 (by rw [a3, hp])
    rw [← a4, ← a2]
    exact this
  · intro j nd q hj hp
    obtain ⟨nd0, a1, a2, a3, a4⟩ := hx' j nd hj
    obtain ⟨b1, nq, P, b2, b3, b4, b5⟩ := hw.child j nd0 q a1 (by rw [a3, hp])
    obtain ⟨nq', c1, _, _, c4⟩ := hx q nq b2
    exact ⟨b1, nq', P, c1, by rw [← a4, b3, c4], hx.path b4, by rw [← a2]; exact b5⟩
  · intro j nd t hj ht
    rcases h.cases hj with ⟨rfl, nd0, h1, rfl⟩ | ⟨_, h1⟩
    · simp only [Option.some.injEq] at ht
      subst ht
      obtain ⟨b1, ns, b2, b3⟩ := hs nd0 h1
      obtain ⟨ns', c1, _, _, c4⟩ := hx s ns b2
      exact ⟨b1, ns', c1, by rw [c4, b3]⟩
    · obtain ⟨b1, ns, b2, b3⟩ := hw.succ j nd t h1 ht
      obtain ⟨ns', c1, _, _, c4⟩ := hx t ns b2
      exact ⟨b1, ns', c1, by rw [c4, b3]⟩
  · intro l a hla
    rw [h.anchors] at hla
    obtain ⟨na, b1, b2⟩ := hw.anchor l a hla
    obtain ⟨na', c1, _, _, c4⟩ := hx a na b1
    exact ⟨na', c1, by rw [c4, b2]⟩
  · intro j nd hj
    obtain ⟨nd0, a1, _, _, a4⟩ := hx' j nd hj
    rw [h.anchors, ← a4]
    exact hw.level j nd0 a1
  · rw [h.anchors, h.len]
    exact hw.anchors_le
  · intro j nd c hj hc
    have : ∃ nd0, f.nodes[j]? = some nd0 ∧ c ∈ nd0.children := by
      rcases h.cases hj with ⟨rfl, nd0, h1, rfl⟩ | ⟨_, h1⟩
      · exact ⟨nd0, h1, hc⟩
      · exact ⟨nd, h1, hc⟩
    obtain ⟨nd0, h1, h2⟩ := this
    obtain ⟨nc, b1, b2⟩ := hw.children j nd0 c h1 h2
    obtain ⟨nc', c1, _, c3, _⟩ := hx c nc b1
    exact ⟨nc', c1, by rw [c3, b2]⟩
  · intro c nc p P v hc hp hP hok hlt
    obtain ⟨nd0, a1, a2, a3, a4⟩ := hx' c nc hc
    exact hx.hasChild (hw.closed c nd0 p P v a1 (by rw [a3, hp]) (hx'.path hP) hok (by rw [a2]; exact hlt))

end OpenGM.LazyFlip
