import Verif.Lemmas.LazyForest
/-
Lemmas about the generation and the traversal of paths in the model of LazyFlipper.
-/
namespace OpenGM.LazyFlip
open Spec
variable {n : Nat} {adj : List (List Nat)}

/-- The node that was added last. -/
structure Newest (f : Forest) (p : Nat) (nd : Node) : Prop where
  last : p + 1 = f.nodes.length
  node : f.nodes[p]? = some nd
  child : ∀ (q : Nat) nq, nd.parent = some q → f.nodes[q]? = some nq → nq.children.getLast? = some p

/-- The order of the nodes is the order of the levels, and the pointers follow it. This holds during the first call of `infer`. -/
structure Linear (f : Forest) : Prop where
  next : ∀ (i : Nat) nd nd', f.nodes[i]? = some nd → f.nodes[i + 1]? = some nd' →
    (nd'.level = nd.level ∧ nd.succ = some (i + 1)) ∨ (nd'.level = nd.level + 1 ∧ nd.succ = none ∧ f.anchors[nd.level + 1]? = some (i + 1))
  last : ∀ (i : Nat) nd, f.nodes[i]? = some nd → i + 1 = f.nodes.length → nd.succ = none ∧ f.anchors.length = nd.level + 1
  first : ∀ nd, f.nodes[0]? = some nd → nd.level = 0 ∧ f.anchors[0]? = some 0
  root : ∀ (i : Nat) nd, f.nodes[i]? = some nd → nd.level = 0 → nd.value = i

theorem linear_empty : Linear Forest.empty := by
  refine ⟨?_, ?_, ?_, ?_⟩ <;> simp [Forest.empty]

theorem Linear.mono {f : Forest} (h : Linear f) : ∀ (d i : Nat) (nd nd' : Node), f.nodes[i]? = some nd → f.nodes[i + d]? = some nd' → nd.level ≤ nd'.level
  | 0, i, nd, nd', h1, h2 => by
    rw [Nat.add_zero, h1] at h2
    rw [Option.some.inj h2]
  | d + 1, i, nd, nd', h1, h2 => by
    have hl := (List.getElem?_eq_some_iff.mp h2).1
    have hi : i + d < f.nodes.length := by omega
    have ih := h.mono d i nd _ h1 (List.getElem?_eq_getElem hi)
    rcases h.next (i + d) _ nd' (List.getElem?_eq_getElem hi) h2 with ⟨a, _⟩ | ⟨a, _⟩ <;> omega

theorem Linear.mono' {f : Forest} (h : Linear f) {i j : Nat} {nd nd' : Node} (h1 : f.nodes[i]? = some nd) (h2 : f.nodes[j]? = some nd') (hij : i ≤ j) :
    nd.level ≤ nd'.level := h.mono (j - i) i nd nd' h1 (by rw [Nat.add_sub_cancel' hij]; exact h2)

theorem Linear.chain {f : Forest} (h : Linear f) : ∀ (d i : Nat) (nd nd' : Node), f.nodes[i]? = some nd → f.nodes[i + d]? = some nd' → nd'.level = nd.level →
    Chain f i (i + d)
  | 0, i, nd, nd', h1, h2, h3 => .refl
  | d + 1, i, nd, nd', h1, h2, h3 => by
    have hl := (List.getElem?_eq_some_iff.mp h2).1
    have hi : i + 1 < f.nodes.length := by omega
    have e : i + (d + 1) = (i + 1) + d := by omega
    have hm := h.mono' (List.getElem?_eq_getElem hi) h2 (by omega)
    rcases h.next i nd _ h1 (List.getElem?_eq_getElem hi) with ⟨a, b⟩ | ⟨a, _⟩
    · rw [e] at h2 ⊢
      exact .step h1 b (h.chain d (i + 1) _ nd' (List.getElem?_eq_getElem hi) h2 (by rw [h3, a]))
    · omega

theorem Linear.chain' {f : Forest} (h : Linear f) {i j : Nat} {nd nd' : Node} (h1 : f.nodes[i]? = some nd) (h2 : f.nodes[j]? = some nd') (hij : i ≤ j)
    (hlev : nd'.level = nd.level) : Chain f i j := by
  have := h.chain (j - i) i nd nd' h1 (by rw [Nat.add_sub_cancel' hij]; exact h2) hlev
  rwa [Nat.add_sub_cancel' hij] at this

/-- A node at a new level keeps the order. -/
theorem Linear.push {f f' : Forest} {par : Option Nat} {v lev : Nat} (h : Linear f) (hp : Pushed f f' par v lev) (hlev : f.anchors.length = lev)
    (hempty : f.nodes = [] → lev = 0) (hne : f.nodes ≠ [] → lev ≠ 0) (hv : lev = 0 → v = 0) : Linear f' := by
  have hanch : f'.anchors = f.anchors ++ [f.nodes.length] := by rw [hp.anchors, if_pos (by omega)]
  refine ⟨?_, ?_, ?_, ?_⟩
  · intro i nd nd' h1 h2
    rcases hp.cases h2 with ⟨e, rfl⟩ | ⟨hlt, nd0', a1, rfl⟩
    · rcases hp.cases h1 with ⟨e', _⟩ | ⟨_, nd0, b1, rfl⟩
      · omega
      · obtain ⟨c1, c2⟩ := h.last i nd0 b1 (by omega)
        right
        refine ⟨by simp only; omega, c1, ?_⟩
        rw [hanch]
        simp only
        rw [← c2, List.getElem?_append_right (le_refl _)]
        simp [e]
    · rcases hp.cases h1 with ⟨e', _⟩ | ⟨_, nd0, b1, rfl⟩
      · omega
      · rcases h.next i nd0 nd0' b1 a1 with ⟨c1, c2⟩ | ⟨c1, c2, c3⟩
        · exact .inl ⟨c1, c2⟩
        · refine .inr ⟨c1, c2, ?_⟩
          simp only
          rw [hanch, List.getElem?_append_left (List.getElem?_eq_some_iff.mp c3).1]
          exact c3
  · intro i nd h1 h2
    rw [hp.len] at h2
    rcases hp.cases h1 with ⟨e, rfl⟩ | ⟨hlt, _⟩
    · exact ⟨rfl, by rw [hanch]; simp [hlev]⟩
    · omega
  · intro nd h1
    rcases hp.cases h1 with ⟨e, rfl⟩ | ⟨hlt, nd0, a1, rfl⟩
    · have hl := List.length_eq_zero_iff.mp e.symm
      have := hempty hl
      refine ⟨this, ?_⟩
      have ha : f.anchors = [] := List.length_eq_zero_iff.mp (by omega)
      rw [hanch, ha, ← e]
      rfl
    · obtain ⟨b1, b2⟩ := h.first nd0 a1
      refine ⟨b1, ?_⟩
      rw [hanch, List.getElem?_append_left (List.getElem?_eq_some_iff.mp b2).1]
      exact b2
  · intro i nd h1 h2
    rcases hp.cases h1 with ⟨e, rfl⟩ | ⟨hlt, nd0, a1, rfl⟩
    · simp only at h2
      have : f.nodes = [] := by
        by_contra hne'
        exact hne hne' h2
      simp only
      rw [e, hv h2, this]
      rfl
    · exact h.root i nd0 a1 h2

/-- A node at the same level, with the pointer to it, keeps the order. -/
theorem Linear.grow {f f1 f2 : Forest} {par : Option Nat} {v p : Nat} {nd : Node} (h : Linear f) (hnd : f.nodes[p]? = some nd)
    (hlast : p + 1 = f.nodes.length) (hp : Pushed f f1 par v nd.level) (hl : Linked f1 f2 p f.nodes.length) (hv : nd.level = 0 → v = f.nodes.length) : Linear f2 := by
  obtain ⟨l1, l2⟩ := h.last p nd hnd hlast
  have hanch : f2.anchors = f.anchors := by rw [hl.anchors, hp.anchors, if_neg (by omega)]
  have hcases : ∀ (i : Nat) nd2, f2.nodes[i]? = some nd2 → (i = f.nodes.length ∧ nd2.level = nd.level ∧ nd2.value = v ∧ nd2.succ = none) ∨
      (i = p ∧ nd2.level = nd.level ∧ nd2.value = nd.value ∧ nd2.succ = some f.nodes.length) ∨
      (i < p ∧ ∃ nd0, f.nodes[i]? = some nd0 ∧ nd2.level = nd0.level ∧ nd2.value = nd0.value ∧ nd2.succ = nd0.succ) := by
    intro i nd2 hi
    rcases hl.cases hi with ⟨rfl, nd1, a1, rfl⟩ | ⟨hne, a1⟩
    · right; left
      rcases hp.cases a1 with ⟨e, _⟩ | ⟨_, nd0, b1, rfl⟩
      · omega
      · rw [hnd] at b1
        obtain rfl := Option.some.inj b1
        exact ⟨rfl, rfl, rfl, rfl⟩
    · rcases hp.cases a1 with ⟨e, rfl⟩ | ⟨hlt, nd0, b1, rfl⟩
      · exact .inl ⟨e, rfl, rfl, rfl⟩
      · exact .inr (.inr ⟨by omega, nd0, b1, rfl, rfl, rfl⟩)
  refine ⟨?_, ?_, ?_, ?_⟩
  · intro i na nb h1 h2
    rcases hcases i na h1 with ⟨a1, a2, a3, a4⟩ | ⟨a1, a2, a3, a4⟩ | ⟨a1, nd0, a2, a3, a4, a5⟩
    · have := (List.getElem?_eq_some_iff.mp h2).1
      rw [hl.len, hp.len] at this
      omega
    · rcases hcases (i + 1) nb h2 with ⟨b1, b2, b3, b4⟩ | ⟨b1, b2, b3, b4⟩ | ⟨b1, nd0', b2, b3, b4, b5⟩
      · left
        exact ⟨by rw [b2, a2], by rw [a4, b1]⟩
      · omega
      · omega
    · have hb : ∃ nd0', f.nodes[i + 1]? = some nd0' ∧ nb.level = nd0'.level := by
        rcases hcases (i + 1) nb h2 with ⟨b1, b2, b3, b4⟩ | ⟨b1, b2, b3, b4⟩ | ⟨b1, nd0', b2, b3, b4, b5⟩
        · omega
        · exact ⟨nd, by rw [b1]; exact hnd, b2⟩
        · exact ⟨nd0', b2, b3⟩
      obtain ⟨nd0', b1, b2⟩ := hb
      rw [b2, a3, a5, hanch]
      exact h.next i nd0 nd0' a2 b1
  · intro i na h1 h2
    rw [hl.len, hp.len] at h2
    rcases hcases i na h1 with ⟨a1, a2, a3, a4⟩ | ⟨a1, a2, a3, a4⟩ | ⟨a1, nd0, a2, a3, a4, a5⟩
    · exact ⟨a4, by rw [hanch, l2, a2]⟩
    · omega
    · omega
  · intro na h1
    have hb : ∃ nd0', f.nodes[0]? = some nd0' ∧ na.level = nd0'.level := by
      rcases hcases 0 na h1 with ⟨b1, b2, b3, b4⟩ | ⟨b1, b2, b3, b4⟩ | ⟨b1, nd0', b2, b3, b4, b5⟩
      · omega
      · exact ⟨nd, by rw [b1]; exact hnd, b2⟩
      · exact ⟨nd0', b2, b3⟩
    obtain ⟨nd0', b1, b2⟩ := hb
    rw [b2, hanch]
    exact h.first nd0' b1
  · intro i na h1 h2
    rcases hcases i na h1 with ⟨a1, a2, a3, a4⟩ | ⟨a1, a2, a3, a4⟩ | ⟨a1, nd0, a2, a3, a4, a5⟩
    · rw [a3, a1]
      exact hv (by rw [← a2]; exact h2)
    · rw [a3, a1]
      exact h.root p nd hnd (by rw [← a2]; exact h2)
    · rw [a4]
      exact h.root i nd0 a2 (by rw [← a3]; exact h2)

theorem WF.parent_none {f : Forest} (hw : WF n adj f) {i : Nat} {nd : Node} (hi : f.nodes[i]? = some nd) : nd.level = 0 ↔ nd.parent = none := by
  constructor
  · intro h
    cases e : nd.parent with
    | none => rfl
    | some q =>
      obtain ⟨_, nq, _, _, h3, _⟩ := hw.child i nd q hi e
      omega
  · exact fun h => (hw.root i nd hi h).1

/-- The step to the next path: the properties of the new node. -/
structure NextStep (n : Nat) (adj : List (List Nat)) (f f' : Forest) (nd nd' : Node) : Prop where
  wf : WF n adj f'
  ext : Ext f f'
  newest : Newest f' f.nodes.length nd'
  level : nd'.level = nd.level
  len : f'.nodes.length = f.nodes.length + 1
  root : nd.parent = none → nd'.parent = none ∧ nd'.value = nd.value + 1
  child : ∀ q, nd.parent = some q → ∃ q', nd'.parent = some q' ∧ (q < q' ∨ (q = q' ∧ nd.value < nd'.value)) ∧ ∀ i, Chain f q i → i < q' → Exhausted adj f i
  linear : Linear f → Linear f'

theorem nextPath_spec (ha : AdjOk n adj) {f : Forest} (hw : WF n adj f) {p : Nat} {nd : Node} (hN : Newest f p nd) {fuel : Nat} (hf : f.nodes.length ≤ fuel) :
    (nextPath n adj fuel f p = some none ∧ (nd.level = 0 → n ≤ nd.value + 1) ∧ ∀ q, nd.parent = some q → ∀ i, Chain f q i → Exhausted adj f i) ∨
    (∃ f' nd', nextPath n adj fuel f p = some (some (f.nodes.length, f')) ∧ NextStep n adj f f' nd nd') := by
  have hnd := hN.node
  have hlast := hN.last
  -- the pointer to the new node
  have hlink : ∀ (f1 : Forest) par v, Pushed f f1 par v nd.level → WF n adj f1 →
      ∃ f2, f1.setSuccessor p f.nodes.length = some f2 ∧ Linked f1 f2 p f.nodes.length ∧ WF n adj f2 ∧
        f2.nodes[f.nodes.length]? = some ⟨v, par, [], nd.level, none⟩ := by
    intro f1 par v hp hw1
    obtain ⟨f2, a1, a2⟩ := setSuccessor_spec (hp.old p nd hnd) f.nodes.length
    refine ⟨f2, a1, a2, a2.wf hw1 ?_, ?_⟩
    · intro nd1 h1
      rw [hp.old p nd hnd] at h1
      obtain rfl := Option.some.inj h1
      exact ⟨by omega, _, hp.new, rfl⟩
    · rw [a2.other _ (by omega)]
      exact hp.new
  by_cases hlev : nd.level = 0
  · have hpar := (hw.parent_none hnd).mp hlev
    by_cases hv : nd.value + 1 < n
    · right
      obtain ⟨f1, a1, a2⟩ := pushBack_root f (nd.value + 1)
      have hw1 : WF n adj f1 := a2.wf hw (fun _ => ⟨rfl, hv⟩) (by simp)
      rw [← hlev] at a2
      obtain ⟨f2, b1, b2, b3, b4⟩ := hlink f1 none _ a2 hw1
      refine ⟨f2, ⟨nd.value + 1, none, [], nd.level, none⟩, ?_, ⟨b3, a2.ext.trans b2.ext, ⟨by rw [b2.len, a2.len], b4, by simp⟩, rfl, by rw [b2.len, a2.len],
        fun _ => ⟨rfl, rfl⟩, ?_, ?_⟩⟩
      · unfold nextPath
        rw [hnd]
        simp only
        rw [if_pos hlev, if_pos hv, a1]
        simp only
        rw [b1]
      · intro q hq
        rw [hpar] at hq
        simp at hq
      · intro hlin
        exact hlin.grow hnd hlast a2 b2 (fun _ => by rw [hlin.root p nd hnd hlev, hlast])
    · left
      refine ⟨?_, fun _ => by omega, ?_⟩
      · unfold nextPath
        rw [hnd]
        simp only
        rw [if_pos hlev, if_neg hv]
      · intro q hq
        rw [hpar] at hq
        simp at hq
  · obtain ⟨q, hq⟩ : ∃ q, nd.parent = some q := by
      cases e : nd.parent with
      | none => exact absurd ((hw.parent_none hnd).mpr e) hlev
      | some q => exact ⟨q, rfl⟩
    obtain ⟨hqp, nq, Pq, q1, q2, q3, q4⟩ := hw.child p nd q hnd hq
    rcases appendLoop_spec ha hw fuel q nq q1 (by omega) with ⟨a1, a2⟩ | ⟨p', np, v, P', f1, a1, a2, a3, a4, a5, a6, a7, a8, a9, a10⟩
    · left
      refine ⟨?_, fun h => absurd h hlev, ?_⟩
      · unfold nextPath
        rw [hnd]
        simp only
        rw [if_neg hlev, hq, a1]
      · intro q' hq'
        rw [hq] at hq'
        obtain rfl := Option.some.inj hq'
        exact a2
    · right
      have hw1 : WF n adj f1 := a6.wf hw (by simp) (by
        intro p0 hp0
        obtain rfl := Option.some.inj hp0
        exact ⟨np, P', a2, rfl, a5, a7, a8⟩)
      have hlev' : np.level + 1 = nd.level := by rw [a3, q2]
      rw [hlev'] at a6
      obtain ⟨f2, b1, b2, b3, b4⟩ := hlink f1 (some p') v a6 hw1
      refine ⟨f2, ⟨v, some p', [], nd.level, none⟩, ?_, ⟨b3, a6.ext.trans b2.ext, ⟨by rw [b2.len, a6.len], b4, ?_⟩, rfl, by rw [b2.len, a6.len], ?_, ?_, ?_⟩⟩
      · unfold nextPath
        rw [hnd]
        simp only
        rw [if_neg hlev, hq, a1]
        simp only
        rw [b1]
      · intro r nr hr hnr
        simp only [Option.some.injEq] at hr
        subst hr
        have := (a6.old p' np a2)
        rcases b2.cases hnr with ⟨e, nd1, c1, rfl⟩ | ⟨e, c1⟩
        · rw [← e, this] at c1
          obtain rfl := Option.some.inj c1
          simp
        · rw [this] at c1
          obtain rfl := Option.some.inj c1
          simp
      · intro h
        rw [hq] at h
        simp at h
      · intro q' hq'
        rw [hq] at hq'
        obtain rfl := Option.some.inj hq'
        refine ⟨p', rfl, ?_, a10⟩
        rcases Nat.lt_or_ge q p' with h | h
        · exact .inl h
        · right
          have e : q = p' := by omega
          refine ⟨e, ?_⟩
          subst e
          rw [q1] at a2
          obtain rfl := Option.some.inj a2
          exact a9 p nd (hN.child q nq hq q1) hnd
      · intro hlin
        exact hlin.grow hnd hlast a6 b2 (fun h => absurd h hlev)

/-- The properties of the first path of a length. -/
structure FirstStep (n : Nat) (adj : List (List Nat)) (f f' : Forest) (length : Nat) (nd' : Node) : Prop where
  wf : WF n adj f'
  ext : Ext f f'
  newest : Newest f' f.nodes.length nd'
  level : nd'.level + 1 = length
  len : f'.nodes.length = f.nodes.length + 1
  child : ∀ q, nd'.parent = some q → ∀ a, f.anchors[length - 2]? = some a → ∀ i, Chain f a i → i < q → Exhausted adj f i
  linear : Linear f → f.anchors.length + 1 = length → Linear f'

theorem firstPath_one (hn : 0 < n) {f : Forest} (hw : WF n adj f) (fuel : Nat) :
    ∃ f' nd', firstPath n adj fuel f 1 = some (some (f.nodes.length, f')) ∧ FirstStep n adj f f' 1 nd' := by
  obtain ⟨f1, a1, a2⟩ := pushBack_root f 0
  refine ⟨f1, ⟨0, none, [], 0, none⟩, ?_, ⟨a2.wf hw (fun _ => ⟨rfl, hn⟩) (by simp), a2.ext, ⟨a2.len.symm, a2.new, by simp⟩, rfl, a2.len, by simp, ?_⟩⟩
  · unfold firstPath
    rw [if_neg (by omega), if_pos rfl, a1]
  · intro hlin hl
    have h0 : f.anchors.length = 0 := by omega
    have hemp : f.nodes = [] := by
      by_contra hne
      have hpos := List.length_pos_of_ne_nil hne
      have := hw.level 0 _ (List.getElem?_eq_getElem hpos)
      omega
    exact hlin.push a2 h0 (fun _ => rfl) (fun h => absurd hemp h) (fun _ => rfl)

theorem firstPath_spec (ha : AdjOk n adj) {f : Forest} (hw : WF n adj f) {length : Nat} (h1 : 2 ≤ length) (h2 : length ≤ n) (h3 : length ≤ f.anchors.length + 1)
    {fuel : Nat} (hf : f.nodes.length ≤ fuel) :
    (firstPath n adj fuel f length = some none ∧ ∀ a, f.anchors[length - 2]? = some a → ∀ i, Chain f a i → Exhausted adj f i) ∨
    (∃ f' nd', firstPath n adj fuel f length = some (some (f.nodes.length, f')) ∧ FirstStep n adj f f' length nd') := by
  have hal : length - 2 < f.anchors.length := by omega
  obtain ⟨na, n1, n2⟩ := hw.anchor (length - 2) _ (List.getElem?_eq_getElem hal)
  have hunf : firstPath n adj fuel f length = appendLoop adj f fuel (some f.anchors[length - 2]) := by
    unfold firstPath
    rw [if_neg (by omega), if_neg (by omega), List.getElem?_eq_getElem hal]
  rw [hunf, List.getElem?_eq_getElem hal]
  rcases appendLoop_spec ha hw fuel _ na n1 (by omega) with ⟨a1, a2⟩ | ⟨p', np, v, P', f1, a1, a2, a3, a4, a5, a6, a7, a8, a9, a10⟩
  · left
    refine ⟨a1, ?_⟩
    intro a e
    obtain rfl := Option.some.inj e
    exact a2
  · right
    have hw1 : WF n adj f1 := a6.wf hw (by simp) (by
      intro p0 hp0
      obtain rfl := Option.some.inj hp0
      exact ⟨np, P', a2, rfl, a5, a7, a8⟩)
    refine ⟨f1, ⟨v, some p', [], np.level + 1, none⟩, a1, ⟨hw1, a6.ext, ⟨a6.len.symm, a6.new, ?_⟩, by simp only; omega, a6.len, ?_, ?_⟩⟩
    · intro r nr hr hnr
      simp only [Option.some.injEq] at hr
      subst hr
      rw [a6.old p' np a2] at hnr
      obtain rfl := Option.some.inj hnr
      simp
    · intro q hq a e
      simp only [Option.some.injEq] at hq
      subst hq
      rw [List.getElem?_eq_getElem hal] at e
      obtain rfl := Option.some.inj e
      exact a10
    · intro hlin hl
      have hlt := (List.getElem?_eq_some_iff.mp a2).1
      refine hlin.push a6 (by omega) (fun h => ?_) (fun _ => by omega) (fun h => by omega)
      rw [h] at hlt
      simp at hlt

/-! ### traversal of the active paths -/

/-- A variable of the list is active. -/
def Meets (t : Tagging Bool) (P : List Nat) : Prop := ∃ v ∈ P, On t v

/-- The steps that remain after node `p` with level `l`. -/
def remaining (f : Forest) (p l : Nat) : Nat := (f.anchors.length - l) * f.nodes.length + (f.nodes.length - p)

theorem remaining_le (f : Forest) (hw : WF n adj f) (p l : Nat) : remaining f p l ≤ f.nodes.length * f.nodes.length + f.nodes.length := by
  unfold remaining
  have h1 : f.anchors.length - l ≤ f.nodes.length := le_trans (Nat.sub_le _ _) hw.anchors_le
  exact Nat.add_le_add (Nat.mul_le_mul_right _ h1) (Nat.sub_le _ _)

theorem On.lt {t : Tagging Bool} {d n v : Nat} (ht : TagOk false n t) (h : On t v) (_ : d = d) : v < n := by
  have := (List.getElem?_eq_some_iff.mp h).1
  rwa [ht.length] at this

theorem nextActive_spec (ha : AdjOk n adj) {f : Forest} (hw : WF n adj f) {t : Tagging Bool} (ht : TagOk false n t) : ∀ (fuel p : Nat) (nd : Node), f.nodes[p]? = some nd →
    remaining f p nd.level < fuel →
    (nextActive f t fuel p = some none ∧ (Linear f → ∀ (i : Nat) P, p < i → Path f i P → ¬ Meets t P)) ∨
    (∃ (q : Nat) (nq : Node), nextActive f t fuel p = some (some q) ∧ f.nodes[q]? = some nq ∧ remaining f q nq.level < remaining f p nd.level ∧
      (Linear f → p < q ∧ ∀ (i : Nat) P, p < i → i < q → Path f i P → ¬ Meets t P))
  | 0, p, nd, hp, hf => by omega
  | fuel + 1, p, nd, hp, hf => by
    have hpl := (List.getElem?_eq_some_iff.mp hp).1
    -- the candidate `q`
    have key : ∀ (q : Nat) (nq : Node), f.nodes[q]? = some nq → remaining f q nq.level < remaining f p nd.level → (Linear f → q = p + 1) →
        nextActive f t (fuel + 1) p = (match f.pathUp f.nodes.length (some q) with
          | none => none
          | some vs =>
            match anyActive t vs with
            | none => none
            | some true => some (some q)
            | some false => nextActive f t fuel q) →
        (nextActive f t (fuel + 1) p = some none ∧ (Linear f → ∀ (i : Nat) P, p < i → Path f i P → ¬ Meets t P)) ∨
        (∃ (q : Nat) (nq : Node), nextActive f t (fuel + 1) p = some (some q) ∧ f.nodes[q]? = some nq ∧ remaining f q nq.level < remaining f p nd.level ∧
          (Linear f → p < q ∧ ∀ (i : Nat) P, p < i → i < q → Path f i P → ¬ Meets t P)) := by
      intro q nq hq hrem hlin e
      obtain ⟨P, hP⟩ := hw.path hq
      have hlt := ((hw.path_spec hP).1.props ha).2.1
      obtain ⟨b, b1, b2⟩ := anyActive_spec ht P.reverse (fun v hv => hlt v (List.mem_reverse.mp hv))
      rw [e, pathUp_nodes hw hP]
      simp only
      rw [b1]
      cases b with
      | true =>
        right
        refine ⟨q, nq, rfl, hq, hrem, ?_⟩
        intro hl
        have := hlin hl
        exact ⟨by omega, fun i Q h1 h2 => by omega⟩
      | false =>
        simp only
        have hno : ¬ Meets t P := by
          rintro ⟨v, hv, hon⟩
          have := b2.mpr ⟨v, List.mem_reverse.mpr hv, hon⟩
          simp at this
        rcases nextActive_spec ha hw ht fuel q nq hq (by omega) with ⟨i1, i2⟩ | ⟨q', nq', i1, i2, i3, i4⟩
        · left
          refine ⟨i1, ?_⟩
          intro hl i Q hi hQ
          have := hlin hl
          rcases Nat.lt_or_ge q i with h | h
          · exact i2 hl i Q h hQ
          · have : i = q := by omega
            subst this
            rw [hQ.unique hP]
            exact hno
        · right
          refine ⟨q', nq', i1, i2, by omega, ?_⟩
          intro hl
          have := hlin hl
          obtain ⟨j1, j2⟩ := i4 hl
          refine ⟨by omega, ?_⟩
          intro i Q h1 h2 hQ
          rcases Nat.lt_or_ge q i with h | h
          · exact j2 i Q h h2 hQ
          · have : i = q := by omega
            subst this
            rw [hQ.unique hP]
            exact hno
    cases hs : nd.succ with
    | some s =>
      obtain ⟨s1, ns, s2, s3⟩ := hw.succ p nd s hp hs
      refine key s ns s2 ?_ ?_ ?_
      · unfold remaining
        rw [s3]
        omega
      · intro hl
        have hsl := (List.getElem?_eq_some_iff.mp s2).1
        have hp1 : p + 1 < f.nodes.length := by omega
        rcases hl.next p nd _ hp (List.getElem?_eq_getElem hp1) with ⟨_, h⟩ | ⟨_, h, _⟩
        · rw [hs] at h
          exact Option.some.inj h
        · rw [hs] at h
          simp at h
      · simp only [nextActive]
        rw [hp]
        simp only
        rw [hs]
        rfl
    | none =>
      by_cases hlev : nd.level + 1 < f.anchors.length
      · obtain ⟨na, a1, a2⟩ := hw.anchor (nd.level + 1) _ (List.getElem?_eq_getElem hlev)
        refine key _ na a1 ?_ ?_ ?_
        · unfold remaining
          have hal := (List.getElem?_eq_some_iff.mp a1).1
          have e : f.anchors.length - nd.level = (f.anchors.length - na.level) + 1 := by omega
          rw [e, Nat.add_mul]
          omega
        · intro hl
          have hp1 : p + 1 < f.nodes.length := by
            by_contra h
            have := (hl.last p nd hp (by omega)).2
            omega
          rcases hl.next p nd _ hp (List.getElem?_eq_getElem hp1) with ⟨_, h⟩ | ⟨_, _, h⟩
          · rw [hs] at h
            simp at h
          · rw [List.getElem?_eq_getElem hlev] at h
            exact Option.some.inj h
        · simp only [nextActive]
          rw [hp]
          simp only
          rw [hs]
          simp only
          rw [if_pos hlev, List.getElem?_eq_getElem hlev]
          rfl
      · left
        refine ⟨?_, ?_⟩
        · simp only [nextActive]
          rw [hp]
          simp only
          rw [hs]
          simp only
          rw [if_neg hlev]
        · intro hl i P hi hP
          exfalso
          have hil := path_lt hP
          have hp1 : p + 1 < f.nodes.length := by omega
          rcases hl.next p nd _ hp (List.getElem?_eq_getElem hp1) with ⟨_, h⟩ | ⟨_, _, h⟩
          · rw [hs] at h
            simp at h
          · have := (List.getElem?_eq_some_iff.mp h).1
            omega

theorem firstActiveLoop_spec {f : Forest} (hw : WF n adj f) {t : Tagging Bool} (ht : TagOk false n t) : ∀ (fuel p : Nat) (nd : Node), f.nodes[p]? = some nd →
    nd.level = 0 → f.nodes.length ≤ p + fuel →
    (firstActiveLoop f t fuel (some p) = some none ∧ ∀ (i : Nat) ni, Chain f p i → f.nodes[i]? = some ni → ¬ On t ni.value) ∨
    (∃ (q : Nat) (nq : Node), firstActiveLoop f t fuel (some p) = some (some q) ∧ f.nodes[q]? = some nq ∧ nq.level = 0 ∧ On t nq.value ∧
      ∀ (i : Nat) ni, Chain f p i → f.nodes[i]? = some ni → i < q → ¬ On t ni.value)
  | 0, p, nd, hp, _, hf => by
    have := (List.getElem?_eq_some_iff.mp hp).1
    omega
  | fuel + 1, p, nd, hp, hlev, hf => by
    have hpar := (hw.parent_none hp).mp hlev
    have hv := (hw.root p nd hp hpar).2
    obtain ⟨b, b1, b2⟩ := get_spec ht hv
    simp only [firstActiveLoop]
    rw [hp]
    simp only
    rw [b1]
    cases b with
    | true =>
      right
      refine ⟨p, nd, rfl, hp, hlev, b2.mp rfl, ?_⟩
      intro i ni hi _ hlt
      have := hi.le hw
      omega
    | false =>
      simp only
      have hno : ¬ On t nd.value := fun h => by simpa using b2.mpr h
      cases hs : nd.succ with
      | none =>
        left
        refine ⟨by cases fuel <;> rfl, ?_⟩
        intro i ni hi hni
        cases hi with
        | refl =>
          rw [hp] at hni
          obtain rfl := Option.some.inj hni
          exact hno
        | step e1 e2 _ =>
          rw [hp] at e1
          obtain rfl := Option.some.inj e1
          rw [hs] at e2
          simp at e2
      | some s =>
        obtain ⟨s1, ns, s2, s3⟩ := hw.succ p nd s hp hs
        have hchain : ∀ i, Chain f p i → i = p ∨ Chain f s i := by
          intro i hi
          cases hi with
          | refl => exact .inl rfl
          | step e1 e2 h =>
            rw [hp] at e1
            obtain rfl := Option.some.inj e1
            rw [hs] at e2
            obtain rfl := Option.some.inj e2
            exact .inr h
        rcases firstActiveLoop_spec hw ht fuel s ns s2 (by omega) (by omega) with ⟨i1, i2⟩ | ⟨q, nq, i1, i2, i3, i4, i5⟩
        · left
          refine ⟨i1, ?_⟩
          intro i ni hi hni
          rcases hchain i hi with rfl | hi
          · rw [hp] at hni
            obtain rfl := Option.some.inj hni
            exact hno
          · exact i2 i ni hi hni
        · right
          refine ⟨q, nq, i1, i2, i3, i4, ?_⟩
          intro i ni hi hni hlt
          rcases hchain i hi with rfl | hi
          · rw [hp] at hni
            obtain rfl := Option.some.inj hni
            exact hno
          · exact i5 i ni hi hni hlt

theorem firstActive_spec {f : Forest} (hw : WF n adj f) {t : Tagging Bool} (ht : TagOk false n t) {fuel : Nat} (hf : f.nodes.length ≤ fuel) :
    (firstActive f t fuel = some none ∧ (Linear f → ∀ (i : Nat) ni, f.nodes[i]? = some ni → ni.level = 0 → ¬ On t ni.value)) ∨
    (∃ (q : Nat) (nq : Node), firstActive f t fuel = some (some q) ∧ f.nodes[q]? = some nq ∧ On t nq.value ∧
      (Linear f → ∀ (i : Nat) P, i < q → Path f i P → ¬ Meets t P)) := by
  cases h0 : f.anchors[0]? with
  | none =>
    left
    refine ⟨by unfold firstActive; rw [h0], ?_⟩
    intro _ i ni hi
    exfalso
    have := hw.level i ni hi
    rw [List.getElem?_eq_none_iff] at h0
    omega
  | some a =>
    obtain ⟨na, a1, a2⟩ := hw.anchor 0 a h0
    have hunf : firstActive f t fuel = firstActiveLoop f t fuel (some a) := by unfold firstActive; rw [h0]
    rw [hunf]
    have hlin0 : Linear f → a = 0 := by
      intro hl
      have hpos : 0 < f.nodes.length := lt_of_le_of_lt (Nat.zero_le _) (List.getElem?_eq_some_iff.mp a1).1
      have := (hl.first _ (List.getElem?_eq_getElem hpos)).2
      rw [h0] at this
      exact Option.some.inj this
    rcases firstActiveLoop_spec hw ht fuel a na a1 a2 (by omega) with ⟨i1, i2⟩ | ⟨q, nq, i1, i2, i3, i4, i5⟩
    · left
      refine ⟨i1, ?_⟩
      intro hl i ni hi hlev
      exact i2 i ni (hl.chain' a1 hi (by rw [hlin0 hl]; omega) (by rw [hlev, a2])) hi
    · right
      refine ⟨q, nq, i1, i2, i4, ?_⟩
      intro hl i P hlt hP
      have hil := path_lt hP
      have hlev : f.nodes[i].level = 0 := by
        have := hl.mono' (List.getElem?_eq_getElem hil) i2 (by omega)
        omega
      have hno := i5 i _ (hl.chain' a1 (List.getElem?_eq_getElem hil) (by rw [hlin0 hl]; omega) (by rw [hlev, a2])) (List.getElem?_eq_getElem hil) hlt
      have hP' := Path.root (List.getElem?_eq_getElem hil) ((hw.parent_none (List.getElem?_eq_getElem hil)).mp hlev)
      rw [hP.unique hP']
      rintro ⟨v, hv, hon⟩
      rw [List.mem_singleton] at hv
      subst hv
      exact hno hon

end OpenGM.LazyFlip
