import Verif.Lemmas.DPGraph
import Verif.Lemmas.EnergySum
import Verif.Model.DynamicProgramming
import Mathlib.Data.List.Nodup
import Mathlib.Data.List.Perm.Subperm
/-
The constructor of DynamicProgramming numbers the variables of a forest such that every variable has at most one neighbour with
a smaller number.
-/
namespace OpenGM.DP
open Spec Search
open scoped Classical
variable {V : Type}

theorem factor_at {gm : GM V} {p : Problem V} (hr : Stores gm p) {f : Nat} {t : Term V} (h : p.terms[f]? = some t) :
    ∃ fr, gm.factors[f]? = some fr ∧ FactorMatches gm fr t := by
  have hlen := hr.factors.length_eq
  have hf : f < p.terms.length := (List.getElem?_eq_some_iff.mp h).1
  have hf' : f < gm.factors.length := by omega
  refine ⟨gm.factors[f], List.getElem?_eq_getElem hf', ?_⟩
  have := hr.factors.get hf' hf
  simp only [List.get_eq_getElem] at this
  rw [List.getElem?_eq_getElem hf] at h
  cases h
  exact this

theorem Inv_perm {X : Type} {G : SimpleGraph X} {D : X → Prop} {r : X} {fa : X → Father X} {pend pend' : List X}
    {cur : Option (X × List X)} (hp : pend.Perm pend') (h : Inv G D r fa pend cur) : Inv G D r fa pend' cur where
  edge := h.edge
  time := h.time
  reach := h.reach
  closed := h.closed
  dvis := h.dvis
  pendVis := fun x hx => h.pendVis x (hp.mem_iff.mpr hx)
  nodup := hp.nodup_iff.mp h.nodup
  leaf := fun x hx => h.leaf x (hp.mem_iff.mpr hx)
  processed := fun x hx hnp => h.processed x hx (fun hm => hnp (hp.mem_iff.mp hm))
  cur := fun x ds hc => by
    obtain ⟨h1, h2⟩ := h.cur x ds hc
    exact ⟨fun hm => h1 (hp.mem_iff.mpr hm), h2⟩

/-- What the arrays of the constructor record. -/
structure OrdInv (n : Nat) (s : Build) (fa : Nat → Father Nat) : Prop where
  lenO : s.order.length = n
  lenC : s.children.length = n
  vis : ∀ v, v < n → (s.order[v]? = some none ↔ fa v = .unvisited)
  range : ∀ v, fa v ≠ .unvisited → v < n
  lt : ∀ v k : Nat, s.order[v]? = some (some k) → k < s.count
  inj : ∀ v w k : Nat, s.order[v]? = some (some k) → s.order[w]? = some (some k) → v = w
  cnt : s.order.countP (fun x => x.isSome) = s.count
  up : ∀ x y, fa y = .of x → ∃ i j : Nat, s.order[x]? = some (some i) ∧ s.order[y]? = some (some j) ∧ i < j
  chld : ∀ v, v < n → s.children[v]? = some ((List.range n).countP (fun c => decide (fa c = .of v)))

theorem countP_set_some (l : List (Option Nat)) (v k : Nat) (h : l[v]? = some none) :
    (l.set v (some k)).countP (fun x => x.isSome) = l.countP (fun x => x.isSome) + 1 := by
  induction l generalizing v with
  | nil => simp at h
  | cons a l ih =>
    cases v with
    | zero => simp at h; subst h; simp
    | succ v =>
      simp only [List.getElem?_cons_succ] at h
      simp only [List.set_cons_succ, List.countP_cons, ih v h]
      omega

theorem order_of_visited {n : Nat} {s : Build} {fa : Nat → Father Nat} (h : OrdInv n s fa) {v : Nat}
    (hv : fa v ≠ .unvisited) : ∃ k, s.order[v]? = some (some k) := by
  have hlt := h.range v hv
  have hl : v < s.order.length := by rw [h.lenO]; exact hlt
  cases e : s.order[v] with
  | none => exact absurd ((h.vis v hlt).mp (by rw [List.getElem?_eq_getElem hl, e])) hv
  | some k => exact ⟨k, by rw [List.getElem?_eq_getElem hl, e]⟩

/-- Numbering one more vertex. -/
theorem OrdInv.mark {n : Nat} {s : Build} {fa : Nat → Father Nat} (h : OrdInv n s fa) {v : Nat} (hv : v < n)
    (hu : fa v = .unvisited) (st : List Nat) (fv : Father Nat) (hfv : fv ≠ .unvisited) (ch : List Nat) (hch : ch.length = n)
    (hup : ∀ x, fv = .of x → fa x ≠ .unvisited)
    (hnotof : ∀ z, fa z ≠ .of v)
    (hc : ∀ w, w < n → ch[w]? = some ((List.range n).countP (fun c => decide (Function.update fa v fv c = .of w)))) :
    OrdInv n ⟨s.order.set v (some s.count), st, s.count + 1, ch⟩ (Function.update fa v fv) := by
  have ho : s.order[v]? = some none := (h.vis v hv).mpr hu
  have hl : v < s.order.length := by rw [h.lenO]; exact hv
  have self : (s.order.set v (some s.count))[v]? = some (some s.count) := List.getElem?_set_self hl
  have oth : ∀ w, w ≠ v → (s.order.set v (some s.count))[w]? = s.order[w]? := fun w hw => List.getElem?_set_ne (Ne.symm hw)
  have up : ∀ z, z ≠ v → Function.update fa v fv z = fa z := fun z hz => Function.update_of_ne hz _ _
  have upv : Function.update fa v fv v = fv := Function.update_self _ _ _
  refine ⟨by simpa using h.lenO, hch, ?_, ?_, ?_, ?_, ?_, ?_, hc⟩
  · intro w hw
    by_cases e : w = v
    · subst e; simp [self, upv, hfv]
    · simp only [oth w e, up w e]; exact h.vis w hw
  · intro w hw
    by_cases e : w = v
    · subst e; exact hv
    · rw [up w e] at hw; exact h.range w hw
  · intro w k hk
    by_cases e : w = v
    · subst e; simp only [self] at hk; cases hk; simp
    · simp only [oth w e] at hk
      have := h.lt w k hk
      simp only; omega
  · intro w w' k h1 h2
    by_cases e : w = v <;> by_cases e' : w' = v
    · rw [e, e']
    · subst e; simp only [self] at h1; cases h1
      simp only [oth w' e'] at h2
      have := h.lt w' _ h2; omega
    · subst e'; simp only [self] at h2; cases h2
      simp only [oth w e] at h1
      have := h.lt w _ h1; omega
    · simp only [oth w e, oth w' e'] at h1 h2
      exact h.inj w w' k h1 h2
  · simp only
    rw [countP_set_some _ _ _ ho, h.cnt]
  · intro x y hxy
    by_cases e : y = v
    · subst e
      rw [upv] at hxy
      have hx := hup x hxy
      have hne : x ≠ y := by rintro rfl; exact hx hu
      obtain ⟨i, hi⟩ := order_of_visited h hx
      exact ⟨i, s.count, by simp only [oth x hne]; exact hi, self, h.lt x i hi⟩
    · rw [up y e] at hxy
      have hx : x ≠ v := by rintro rfl; exact hnotof y hxy
      obtain ⟨i, j, h1, h2, h3⟩ := h.up x y hxy
      exact ⟨i, j, by simp only [oth x hx]; exact h1, by simp only [oth y e]; exact h2, h3⟩

theorem countP_update_of {n : Nat} {fa : Nat → Father Nat} {y x : Nat} (hy : y < n) (hu : fa y = .unvisited) (w : Nat) :
    (List.range n).countP (fun c => decide (Function.update fa y (.of x) c = .of w)) =
      (List.range n).countP (fun c => decide (fa c = .of w)) + (if w = x then 1 else 0) := by
  have hn : (List.range n).Nodup := List.nodup_range
  have hm : y ∈ List.range n := List.mem_range.mpr hy
  revert hn hm
  generalize List.range n = l
  intro hn hm
  induction l with
  | nil => simp at hm
  | cons a l ih =>
    simp only [List.countP_cons]
    rw [List.nodup_cons] at hn
    by_cases e : a = y
    · subst e
      have hl : l.countP (fun c => decide (Function.update fa a (.of x) c = .of w)) = l.countP (fun c => decide (fa c = .of w)) := by
        apply List.countP_congr
        intro c hc
        rw [Function.update_of_ne (by rintro rfl; exact hn.1 hc)]
      rw [hl]
      simp only [Function.update_self, hu, Father.of.injEq, decide_eq_true_eq, reduceCtorEq, decide_false, Bool.false_eq_true,
        if_false, Nat.add_zero]
      by_cases e2 : w = x
      · subst e2; simp
      · simp [e2, Ne.symm e2]
    · have hm' : y ∈ l := by
        rcases List.mem_cons.mp hm with h | h
        · exact absurd h.symm e
        · exact h
      rw [ih hn.2 hm', Function.update_of_ne e]
      omega

theorem countP_update_root {n : Nat} {fa : Nat → Father Nat} {y : Nat} (hu : fa y = .unvisited) (w : Nat) :
    (List.range n).countP (fun c => decide (Function.update fa y .root c = .of w)) =
      (List.range n).countP (fun c => decide (fa c = .of w)) := by
  apply List.countP_congr
  intro c _
  by_cases e : c = y
  · subst e; simp [hu]
  · rw [Function.update_of_ne e]

section
variable {p : Problem V} {D : Nat → Prop} {r : Nat}

/-- `discover` at a neighbour that has not been looked at. -/
theorem discover_spec (hA : (pairGraph p).IsAcyclic) {s : Build} {fa : Nat → Father Nat} {node other : Nat} {ds : List Nat}
    (ho : OrdInv p.numLabels.length s fa) (h : Inv (pairGraph p) D r fa s.stack (some (node, ds)))
    (hadj : (pairGraph p).Adj node other) (hn : node < p.numLabels.length) (hot : other < p.numLabels.length) (hds : other ∉ ds) :
    ∃ s' fa', discover s node other node = some s' ∧ OrdInv p.numLabels.length s' fa' ∧
      Inv (pairGraph p) D r fa' s'.stack (some (node, ds ++ [other])) ∧
      (∀ v, fa v ≠ .unvisited → fa' v ≠ .unvisited) ∧
      (∀ v, fa' v ≠ .unvisited → fa v ≠ .unvisited ∨ v = other) ∧
      s'.stack.length + s.count = s.stack.length + s'.count ∧ (∀ v ∈ s'.stack, v ∈ s.stack ∨ v = other) := by
  have hl : other < s.order.length := by rw [ho.lenO]; exact hot
  unfold discover
  rw [if_pos rfl, List.getElem?_eq_getElem hl]
  cases e : s.order[other] with
  | some k =>
    simp only
    have hv : fa other ≠ .unvisited := by
      intro hu
      have := (ho.vis other hot).mpr hu
      rw [List.getElem?_eq_getElem hl, e] at this
      cases this
    have hf : fa node = .of other := by
      by_contra hne
      exact cycle h hadj hds hv hne hA
    exact ⟨s, fa, rfl, ho, skip h hf, fun _ h => h, fun _ h => Or.inl h, rfl, fun _ h => Or.inl h⟩
  | none =>
    simp only
    have hu : fa other = .unvisited := (ho.vis other hot).mp (by rw [List.getElem?_eq_getElem hl, e])
    have hc := ho.chld node hn
    rw [hc]
    simp only
    have hcv : fa node ≠ .unvisited := (h.cur node ds rfl).2.1
    refine ⟨_, Function.update fa other (.of node), rfl, ?_, ?_, ?_, ?_, ?_, ?_⟩
    · refine ho.mark hot hu _ _ (by simp) _ (by simpa using ho.lenC) ?_ ?_ ?_
      · intro x hx; cases hx; exact hcv
      · intro z hz; exact (h.edge other z hz).2 hu
      · intro w hw
        rw [countP_update_of hot hu]
        by_cases ew : w = node
        · subst ew
          rw [List.getElem?_set_self (by rw [ho.lenC]; exact hw), if_pos rfl]
        · rw [List.getElem?_set_ne (Ne.symm ew), if_neg ew, ho.chld w hw]; rfl
    · refine Inv_perm ?_ (visit h hadj hu)
      exact List.perm_append_singleton _ _
    · intro v hv
      by_cases e2 : v = other
      · subst e2; simp
      · rwa [Function.update_of_ne e2]
    · intro v hv
      by_cases e2 : v = other
      · exact Or.inr e2
      · rw [Function.update_of_ne e2] at hv; exact Or.inl hv
    · simp only [List.length_cons]; omega
    · intro v hv
      rcases List.mem_cons.mp hv with rfl | hv
      · exact Or.inr rfl
      · exact Or.inl hv

theorem discover_ne {s : Build} {node other self : Nat} (h : self ≠ node) : discover s node other self = some s := by
  unfold discover; rw [if_neg h]

variable {gm : GM V}

theorem mentions_cases {p : Problem V} (hr : Represents gm p) {node f : Nat} (h : mentions p.terms node f = true) :
    ∃ t : Term V, p.terms[f]? = some t ∧ node ∈ t.vars ∧ ∃ fr, gm.factors[f]? = some fr ∧ FactorMatches gm fr t := by
  unfold mentions at h
  split at h
  · next t ht =>
    obtain ⟨fr, h1, h2⟩ := factor_at hr.toStores ht
    exact ⟨t, ht, by simpa using h, fr, h1, h2⟩
  · cases h

/-- The factors of `node`, from the invariant with `ds` done. -/
theorem scanNode_spec (hr : Represents gm p) (hA : (bipartite (scopesOf p)).IsAcyclic) {node : Nat} (hn : node < p.numLabels.length) :
    ∀ (fs done : List Nat) (s : Build) (fa : Nat → Father Nat) (ds : List Nat),
      (∀ f ∈ fs, mentions p.terms node f = true) → (done ++ fs).Nodup →
      (∀ y ∈ ds, ∃ g ∈ done, PairTerm p g node y) → (∀ g ∈ done, ∀ y, PairTerm p g node y → y ∈ ds) →
      (∀ g y, PairTerm p g node y → g ∈ done ++ fs) →
      OrdInv p.numLabels.length s fa → Inv (pairGraph p) D r fa s.stack (some (node, ds)) →
      ∃ s' fa', scanNode gm node fs s = some s' ∧ OrdInv p.numLabels.length s' fa' ∧
        Inv (pairGraph p) D r fa' s'.stack none ∧ (∀ v, fa v ≠ .unvisited → fa' v ≠ .unvisited) ∧
        (∀ v, fa' v ≠ .unvisited → fa v ≠ .unvisited ∨ (pairGraph p).Reachable node v) ∧
        s'.stack.length + s.count = s.stack.length + s'.count ∧
        (∀ v ∈ s'.stack, v ∈ s.stack ∨ v < p.numLabels.length) := by
  intro fs
  induction fs with
  | nil =>
    intro done s fa ds _ _ _ h4 h5 ho h
    refine ⟨s, fa, rfl, ho, finish h ?_, fun _ h => h, fun _ h => Or.inl h, rfl, fun _ h => Or.inl h⟩
    rintro y ⟨_, g, hg⟩
    exact h4 g (by simpa using h5 g y hg) y hg
  | cons f fs ih =>
    intro done s fa ds h1 h2 h3 h4 h5 ho h
    obtain ⟨t, ht, hmem, fr, hfr, hm⟩ := mentions_cases hr (h1 f (by simp))
    have hfd : f ∉ done := by
      intro hd
      rw [List.nodup_append] at h2
      exact h2.2.2 f hd f (by simp) rfl
    have hassoc : done ++ f :: fs = (done ++ [f]) ++ fs := by simp
    rw [hassoc] at h2 h5
    unfold scanNode scanFactor
    rw [hfr]
    simp only
    by_cases c : fr.visSize = 2
    · rw [if_pos c]
      have hlen : t.vars.length = 2 := by rw [← hm.visSize]; exact c
      obtain ⟨a, b, hab⟩ : ∃ a b, t.vars = [a, b] := List.length_eq_two.mp hlen
      have ha : gm.visAt fr 0 = some a := by rw [hm.visAt 0 (by omega), hab]; rfl
      have hb : gm.visAt fr 1 = some b := by rw [hm.visAt 1 (by omega), hab]; rfl
      rw [ha, hb]
      simp only
      have hpair : PairTerm p f a b := ⟨t, ht, Or.inl hab⟩
      have hrg := hpair.range hr
      -- the other endpoint
      have key : ∀ other, PairTerm p f node other → other < p.numLabels.length → node ≠ other →
          ∃ s' fa', discover s node other node = some s' ∧ OrdInv p.numLabels.length s' fa' ∧
            Inv (pairGraph p) D r fa' s'.stack (some (node, ds ++ [other])) ∧
            (∀ v, fa v ≠ .unvisited → fa' v ≠ .unvisited) ∧ (∀ v, fa' v ≠ .unvisited → fa v ≠ .unvisited ∨ v = other) ∧
            s'.stack.length + s.count = s.stack.length + s'.count ∧ (∀ v ∈ s'.stack, v ∈ s.stack ∨ v = other) := by
        intro other hp hot hne
        refine discover_spec (pairGraph_acyclic hA) ho h ⟨hne, f, hp⟩ hn hot ?_
        intro hd
        obtain ⟨g, hg, hgp⟩ := h3 other hd
        have := pair_unique hA hne hp hgp
        subst this
        exact hfd hg
      have fin : ∀ other (s' : Build) (fa' : Nat → Father Nat), PairTerm p f node other → other < p.numLabels.length →
          node ≠ other → OrdInv p.numLabels.length s' fa' →
          Inv (pairGraph p) D r fa' s'.stack (some (node, ds ++ [other])) →
          (∀ v, fa v ≠ .unvisited → fa' v ≠ .unvisited) → (∀ v, fa' v ≠ .unvisited → fa v ≠ .unvisited ∨ v = other) →
          s'.stack.length + s.count = s.stack.length + s'.count → (∀ v ∈ s'.stack, v ∈ s.stack ∨ v = other) →
          ∃ s'' fa'', scanNode gm node fs s' = some s'' ∧ OrdInv p.numLabels.length s'' fa'' ∧
            Inv (pairGraph p) D r fa'' s''.stack none ∧ (∀ v, fa v ≠ .unvisited → fa'' v ≠ .unvisited) ∧
            (∀ v, fa'' v ≠ .unvisited → fa v ≠ .unvisited ∨ (pairGraph p).Reachable node v) ∧
            s''.stack.length + s.count = s.stack.length + s''.count ∧
            (∀ v ∈ s''.stack, v ∈ s.stack ∨ v < p.numLabels.length) := by
        intro other s' fa' hp hot hne ho' h' q1 q2 q3 q4
        have a1 : ∀ y ∈ ds ++ [other], ∃ g ∈ done ++ [f], PairTerm p g node y := by
          intro y hy
          rcases List.mem_append.mp hy with hy | hy
          · obtain ⟨g, hg, hgp⟩ := h3 y hy
            exact ⟨g, by simp [hg], hgp⟩
          · simp only [List.mem_singleton] at hy; subst hy
            exact ⟨f, by simp, hp⟩
        have a2 : ∀ g ∈ done ++ [f], ∀ y, PairTerm p g node y → y ∈ ds ++ [other] := by
          intro g hg y hgp
          rcases List.mem_append.mp hg with hg | hg
          · simp [h4 g hg y hgp]
          · simp only [List.mem_singleton] at hg; subst hg
            rcases hp.other hgp with ⟨_, h⟩ | ⟨_, h⟩
            · simp [h]
            · omega
        obtain ⟨s'', fa'', e1, e2, e3, e4, e5, e6, e7⟩ := ih (done ++ [f]) s' fa' (ds ++ [other])
          (fun g hg => h1 g (by simp [hg])) h2 a1 a2 h5 ho' h'
        refine ⟨s'', fa'', e1, e2, e3, fun v hv => e4 v (q1 v hv), ?_, by omega, ?_⟩
        · intro v hv
          rcases e5 v hv with h | h
          · rcases q2 v h with h | h
            · exact Or.inl h
            · subst h; exact Or.inr (SimpleGraph.Adj.reachable ⟨hne, f, hp⟩)
          · exact Or.inr h
        · intro v hv
          rcases e7 v hv with h | h
          · rcases q4 v h with h | h
            · exact Or.inl h
            · subst h; exact Or.inr hot
          · exact Or.inr h
      rw [hab] at hmem
      simp only [List.mem_cons, List.not_mem_nil, or_false] at hmem
      rcases hmem with rfl | rfl
      · -- node = a: the second condition
        rw [discover_ne hrg.2.2.symm]
        simp only
        obtain ⟨s', fa', e1, e2, e3, e4, e5, e6, e7⟩ := key b hpair hrg.2.1 hrg.2.2
        rw [e1]
        exact fin b s' fa' hpair hrg.2.1 hrg.2.2 e2 e3 e4 e5 e6 e7
      · obtain ⟨s', fa', e1, e2, e3, e4, e5, e6, e7⟩ := key a hpair.symm hrg.1 hrg.2.2.symm
        rw [e1]
        simp only
        rw [discover_ne hrg.2.2]
        exact fin a s' fa' hpair.symm hrg.1 hrg.2.2.symm e2 e3 e4 e5 e6 e7
    · rw [if_neg c]
      have hnp : ∀ y, ¬ PairTerm p f node y := by
        rintro y ⟨t', ht', h'⟩
        rw [ht] at ht'
        cases ht'
        apply c
        rw [hm.visSize]
        rcases h' with h' | h' <;> simp [h']
      have a1 : ∀ y ∈ ds, ∃ g ∈ done ++ [f], PairTerm p g node y := by
        intro y hy
        obtain ⟨g, hg, hgp⟩ := h3 y hy
        exact ⟨g, by simp [hg], hgp⟩
      have a2 : ∀ g ∈ done ++ [f], ∀ y, PairTerm p g node y → y ∈ ds := by
        intro g hg y hgp
        rcases List.mem_append.mp hg with hg | hg
        · exact h4 g hg y hgp
        · simp only [List.mem_singleton] at hg; subst hg
          exact absurd hgp (hnp y)
      exact ih (done ++ [f]) s fa ds (fun g hg => h1 g (by simp [hg])) h2 a1 a2 h5 ho h

theorem pairTerm_mentions {p : Problem V} {g a b : Nat} (h : PairTerm p g a b) : mentions p.terms a g = true := by
  obtain ⟨t, h1, h2⟩ := h
  unfold mentions
  rw [h1]
  rcases h2 with h2 | h2 <;> simp [h2]

theorem count_le {n : Nat} {s : Build} {fa : Nat → Father Nat} (h : OrdInv n s fa) : s.count ≤ n := by
  rw [← h.cnt, ← h.lenO]
  exact List.countP_le_length

/-- `drain` empties the stack. -/
theorem drain_spec (hr : Represents gm p) (hA : (bipartite (scopesOf p)).IsAcyclic) :
    ∀ (fuel : Nat) (s : Build) (fa : Nat → Father Nat), p.numLabels.length + s.stack.length < fuel + s.count →
      (∀ v ∈ s.stack, v < p.numLabels.length) →
      OrdInv p.numLabels.length s fa → Inv (pairGraph p) D r fa s.stack none →
      ∃ s' fa', drain gm fuel s = some s' ∧ s'.stack = [] ∧ OrdInv p.numLabels.length s' fa' ∧
        Inv (pairGraph p) D r fa' [] none ∧ (∀ v, fa v ≠ .unvisited → fa' v ≠ .unvisited) ∧
        (∀ v, fa' v ≠ .unvisited → fa v ≠ .unvisited ∨ ∃ u, fa u ≠ .unvisited ∧ (pairGraph p).Reachable u v) := by
  intro fuel
  induction fuel with
  | zero =>
    intro s fa hf hst ho h
    have := count_le ho
    omega
  | succ fuel ih =>
    intro s fa hf hst ho h
    unfold drain
    cases hs : s.stack with
    | nil =>
      rw [hs] at h
      exact ⟨s, fa, rfl, hs, ho, h, fun _ h => h, fun _ h => Or.inl h⟩
    | cons node rest =>
      simp only
      have hn : node < p.numLabels.length := hst node (by rw [hs]; simp)
      have hadj := hr.adj node (by rw [hr.labels]; exact hn)
      rw [hadj]
      simp only
      rw [hs] at h
      have hnv : fa node ≠ .unvisited := (h.pendVis node (by simp)).1
      have h0 := pop h
      have ho0 : OrdInv p.numLabels.length ⟨s.order, rest, s.count, s.children⟩ fa :=
        ⟨ho.lenO, ho.lenC, ho.vis, ho.range, ho.lt, ho.inj, ho.cnt, ho.up, ho.chld⟩
      obtain ⟨s', fa', e1, e2, e3, e4, e5, e6, e7⟩ := scanNode_spec hr hA hn
        ((List.range p.terms.length).filter (mentions p.terms node)) [] ⟨s.order, rest, s.count, s.children⟩ fa []
        (fun f hf => (List.mem_filter.mp hf).2) (by simpa using List.nodup_range.filter _) (by simp) (by simp)
        (fun g y hg => by
          have := pairTerm_mentions hg
          simp only [List.nil_append, List.mem_filter, List.mem_range]
          exact ⟨mentions_lt this, this⟩) ho0 h0
      rw [e1]
      simp only
      simp only at e6 e7
      rw [hs] at hf
      simp only [List.length_cons] at hf
      obtain ⟨s'', fa'', g1, g2, g3, g4, g5, g6⟩ := ih s' fa' (by omega)
        (by
          intro v hv
          rcases e7 v hv with h | h
          · exact hst v (by rw [hs]; simp [h])
          · exact h) e2 e3
      refine ⟨s'', fa'', g1, g2, g3, g4, fun v hv => g5 v (e4 v hv), ?_⟩
      intro v hv
      rcases g6 v hv with h | ⟨u, hu, huv⟩
      · rcases e5 v h with h | h
        · exact Or.inl h
        · exact Or.inr ⟨node, hnv, h⟩
      · rcases e5 u hu with h | h
        · exact Or.inr ⟨u, h, huv⟩
        · exact Or.inr ⟨node, hnv, h.trans huv⟩

end

/-- Between two searches. -/
structure Between (p : Problem V) (s : Build) (fa : Nat → Father Nat) : Prop where
  stack : s.stack = []
  ord : OrdInv p.numLabels.length s fa
  inv : ∃ D r, Inv (pairGraph p) D r fa [] none

theorem Between.closed {p : Problem V} {s : Build} {fa : Nat → Father Nat} (h : Between p s fa) {a b : Nat}
    (hr : (pairGraph p).Reachable a b) (ha : fa a ≠ .unvisited) : fa b ≠ .unvisited := by
  obtain ⟨D, r, hi⟩ := h.inv
  obtain ⟨w⟩ := hr
  induction w with
  | nil => exact ha
  | cons hadj _ ih =>
    apply ih
    rcases hi.processed _ ha (by simp) (by simp) _ hadj with h' | h'
    · rw [h']; simp
    · exact (hi.edge _ _ h').2

variable {gm : GM V} {p : Problem V}

/-- A new search from an unvisited variable. -/
theorem search_spec (hr : Represents gm p) (hA : (bipartite (scopesOf p)).IsAcyclic) {s : Build} {fa : Nat → Father Nat}
    (h : Between p s fa) {v : Nat} (hv : v < p.numLabels.length) (hu : fa v = .unvisited) :
    ∃ s' s'' fa'', start s v = some s' ∧ drain gm (gm.numberOfVariables + 1) s' = some s'' ∧ Between p s'' fa'' ∧
      (∀ w, fa w ≠ .unvisited → fa'' w ≠ .unvisited) ∧ fa'' v ≠ .unvisited ∧
      (∀ w, fa'' w ≠ .unvisited → fa w ≠ .unvisited ∨ (pairGraph p).Reachable v w) := by
  obtain ⟨D, r, hi⟩ := h.inv
  have hl : v < s.order.length := by rw [h.ord.lenO]; exact hv
  have ho : OrdInv p.numLabels.length ⟨s.order.set v (some s.count), v :: s.stack, s.count + 1, s.children⟩
      (Function.update fa v .root) := by
    refine h.ord.mark hv hu _ _ (by simp) _ h.ord.lenC (by simp) (fun z hz => (hi.edge v z hz).2 hu) ?_
    intro w hw
    rw [countP_update_root hu, h.ord.chld w hw]
  have hn := newRoot hi hu
  have hnv : gm.numberOfVariables = p.numLabels.length := by rw [GM.numberOfVariables, hr.labels]
  obtain ⟨s'', fa'', e1, e2, e3, e4, e5, e6⟩ := drain_spec hr hA (gm.numberOfVariables + 1)
    ⟨s.order.set v (some s.count), v :: s.stack, s.count + 1, s.children⟩ _
    (by rw [hnv, h.stack]; simp only [List.length_cons, List.length_nil]; omega)
    (by rw [h.stack]; simpa using hv) ho (by rw [h.stack]; exact hn)
  have uv : ∀ w, fa w ≠ .unvisited → Function.update fa v .root w ≠ .unvisited := by
    intro w hw
    by_cases e : w = v
    · subst e; simp
    · rwa [Function.update_of_ne e]
  have vu : ∀ w, Function.update fa v .root w ≠ .unvisited → fa w ≠ .unvisited ∨ w = v := by
    intro w hw
    by_cases e : w = v
    · exact Or.inr e
    · rw [Function.update_of_ne e] at hw; exact Or.inl hw
  refine ⟨_, s'', fa'', by unfold start; rw [setAt_of_lt _ hl], e1, ⟨e2, e3, _, _, e4⟩, fun w hw => e5 w (uv w hw),
    e5 v (by simp), ?_⟩
  intro w hw
  rcases e6 w hw with h' | ⟨u, hu', huw⟩
  · rcases vu w h' with h' | rfl
    · exact Or.inl h'
    · exact Or.inr (SimpleGraph.Reachable.refl _)
  · rcases vu u hu' with h' | rfl
    · exact Or.inl (h.closed huw h')
    · exact Or.inr huw

theorem drain_nil {s : Build} (h : s.stack = []) (fuel : Nat) : drain gm fuel s = some s := by
  unfold drain; rw [h]

/-- The roots of the parameter: different components, and the first variables (as many as there are roots) are in these
components. -/
structure RootsOK (p : Problem V) (roots : List Nat) : Prop where
  range : ∀ r ∈ roots, r < p.numLabels.length
  apart : roots.Pairwise (fun a b => ¬ (bipartite (scopesOf p)).Reachable (.inl a) (.inl b))
  cover : ∀ v, v < roots.length → v < p.numLabels.length →
    ∃ r ∈ roots, (bipartite (scopesOf p)).Reachable (.inl r) (.inl v)

theorem all_of_count {s : Build} {fa : Nat → Father Nat} {n : Nat} (h : OrdInv n s fa) (hc : n ≤ s.count) :
    ∀ v, v < n → fa v ≠ .unvisited := by
  intro v hv hu
  have ho := (h.vis v hv).mpr hu
  have h1 := h.cnt
  have h2 : s.order.countP (fun x => x.isSome) < s.order.length := by
    rw [List.countP_eq_length_filter]
    apply Nat.lt_of_le_of_ne (List.length_filter_le _ _)
    intro hall
    rw [List.length_filter_eq_length_iff] at hall
    have := hall none (List.mem_of_getElem? ho)
    simp at this
  rw [h.lenO] at h2
  omega

theorem orderLoop_spec (hr : Represents gm p) (hA : (bipartite (scopesOf p)).IsAcyclic)
    (h2 : ∀ t ∈ p.terms, t.vars.length ≤ 2) {roots : List Nat} (hroots : RootsOK p roots) :
    ∀ (k varCount : Nat) (used rs : List Nat) (s : Build) (fa : Nat → Father Nat), k + varCount = p.numLabels.length →
      roots = used ++ rs → used.length ≤ varCount → (rs ≠ [] → used.length = varCount) → Between p s fa →
      (∀ u ∈ used, fa u ≠ .unvisited) → (∀ v, roots.length ≤ v → v < varCount → fa v ≠ .unvisited) →
      (rs ≠ [] → ∀ v, fa v ≠ .unvisited → ∃ u ∈ used, (pairGraph p).Reachable u v) →
      ∃ s' fa', orderLoop gm k varCount rs s = some s' ∧ Between p s' fa' ∧ ∀ v, v < p.numLabels.length → fa' v ≠ .unvisited := by
  have hnv : gm.numberOfVariables = p.numLabels.length := by rw [GM.numberOfVariables, hr.labels]
  have hnod : roots.Nodup := by
    refine hroots.apart.imp ?_
    rintro a b h rfl
    exact h (SimpleGraph.Reachable.refl _)
  have hlen : roots.length ≤ p.numLabels.length := by
    have := (List.Nodup.subperm hnod (fun r hr => List.mem_range.mpr (hroots.range r hr))).length_le
    simpa using this
  intro k
  induction k with
  | zero =>
    intro varCount used rs s fa hk hsplit hu hu' hb hused hv _
    refine ⟨s, fa, rfl, hb, ?_⟩
    have hrs : rs = [] := by
      by_contra hne
      have h1 := hu' hne
      have h2 := congrArg List.length hsplit
      rw [List.length_append] at h2
      have : 0 < rs.length := List.length_pos_iff.mpr hne
      omega
    subst hrs
    rw [List.append_nil] at hsplit
    intro v hvn
    by_cases c : v < roots.length
    · obtain ⟨r, hrm, hrv⟩ := hroots.cover v c hvn
      exact hb.closed (reachable_pair h2 hrv) (hused r (hsplit ▸ hrm))
    · exact hv v (by omega) (by omega)
  | succ k ih =>
    intro varCount used rs s fa hk hsplit hu hu' hb hused hv hreach
    unfold orderLoop
    by_cases c : s.count < gm.numberOfVariables
    · rw [if_pos c]
      cases rs with
      | cons r0 rs =>
        simp only
        have hr0 : r0 ∈ roots := by rw [hsplit]; simp
        have hun : fa r0 = .unvisited := by
          by_contra hne
          obtain ⟨u, hum, hur⟩ := hreach (by simp) r0 hne
          have := hroots.apart
          rw [hsplit, List.pairwise_append] at this
          exact this.2.2 u hum r0 (by simp) (reachable_bipartite hur)
        obtain ⟨s', s'', fa'', e1, e2, e3, e4, e5, e6⟩ := search_spec hr hA hb (hroots.range r0 hr0) hun
        rw [e1]
        simp only
        rw [e2]
        simp only
        have hul := hu' (by simp)
        refine ih (varCount + 1) (used ++ [r0]) rs s'' fa'' (by omega) (by rw [hsplit]; simp) (by simp; omega)
          (by intro _; simp; omega) e3 ?_ ?_ ?_
        · intro u hum
          rcases List.mem_append.mp hum with hum | hum
          · exact e4 u (hused u hum)
          · simp only [List.mem_singleton] at hum; subst hum; exact e5
        · intro v h1 h3
          have := congrArg List.length hsplit
          rw [List.length_append, List.length_cons] at this
          omega
        · intro _ v hvv
          rcases e6 v hvv with h | h
          · obtain ⟨u, hum, huv⟩ := hreach (by simp) v h
            exact ⟨u, by simp [hum], huv⟩
          · exact ⟨r0, by simp, h⟩
      | nil =>
        simp only
        have hvc : varCount < p.numLabels.length := by omega
        have hl : varCount < s.order.length := by rw [hb.ord.lenO]; exact hvc
        rw [List.getElem?_eq_getElem hl]
        cases e : s.order[varCount] with
        | some j =>
          simp only
          rw [drain_nil hb.stack]
          simp only
          refine ih (varCount + 1) used [] s fa (by omega) hsplit (by omega) (by simp) hb hused ?_ (by simp)
          intro v h1 h3
          by_cases ev : v = varCount
          · subst ev
            intro hun
            have := (hb.ord.vis v hvc).mpr hun
            rw [List.getElem?_eq_getElem hl, e] at this
            cases this
          · exact hv v h1 (by omega)
        | none =>
          simp only
          have hun : fa varCount = .unvisited := (hb.ord.vis varCount hvc).mp (by rw [List.getElem?_eq_getElem hl, e])
          obtain ⟨s', s'', fa'', e1, e2, e3, e4, e5, e6⟩ := search_spec hr hA hb hvc hun
          rw [e1]
          simp only
          rw [e2]
          simp only
          refine ih (varCount + 1) used [] s'' fa'' (by omega) hsplit (by omega) (by simp) e3
            (fun u hum => e4 u (hused u hum)) ?_ (by simp)
          intro v h1 h3
          by_cases ev : v = varCount
          · subst ev; exact e5
          · exact e4 v (hv v h1 (by omega))
    · rw [if_neg c]
      refine ⟨s, fa, rfl, hb, all_of_count hb.ord (by rw [hnv] at c; omega)⟩

/-- The result of the constructor: a numbering in which every variable has at most one neighbour with a smaller number. -/
structure Numbering (p : Problem V) (order nodes : List Nat) : Prop where
  len : order.length = p.numLabels.length
  lenN : nodes.length = p.numLabels.length
  at_ : ∀ v k : Nat, order[v]? = some k ↔ nodes[k]? = some v
  uniq : ∀ c f u f' u' i j i' : Nat, PairTerm p f u c → PairTerm p f' u' c → order[c]? = some i → order[u]? = some j →
    order[u']? = some i' → j < i → i' < i → f = f' ∧ u = u'

/-- `c` is a child of `v`. -/
def Child (p : Problem V) (order : List Nat) (v c : Nat) : Prop :=
  (∃ f, PairTerm p f v c) ∧ ∃ i j : Nat, order[v]? = some i ∧ order[c]? = some j ∧ i < j

theorem fillOrdered_spec (n : Nat) : ∀ (os : List (Option Nat)) (i : Nat) (l : List Nat), l.length = n →
    (∀ x ∈ os, ∃ k, x = some k ∧ k < n) → (os.filterMap id).Nodup →
    ∃ l', fillOrdered os i l = some l' ∧ l'.length = n ∧
      (∀ j k : Nat, os[j]? = some (some k) → l'[k]? = some (i + j)) ∧
      ∀ k : Nat, some k ∉ os → l'[k]? = l[k]? := by
  intro os
  induction os with
  | nil => intro i l hl _ _; exact ⟨l, rfl, hl, by simp, by simp⟩
  | cons o os ih =>
    intro i l hl ha hn
    obtain ⟨k, rfl, hk⟩ := ha o (by simp)
    simp only [List.filterMap_cons, id_eq, List.nodup_cons, List.mem_filterMap, exists_eq_right] at hn
    obtain ⟨l', e1, e2, e3, e4⟩ := ih (i + 1) (l.set k i) (by simpa using hl) (fun x hx => ha x (by simp [hx])) hn.2
    refine ⟨l', ?_, e2, ?_, ?_⟩
    · unfold fillOrdered
      rw [setAt_of_lt _ (by omega)]
      exact e1
    · intro j k' hj
      cases j with
      | zero =>
        simp only [List.getElem?_cons_zero, Option.some.injEq] at hj
        subst hj
        rw [e4 k hn.1, List.getElem?_set_self (by omega)]; rfl
      | succ j =>
        simp only [List.getElem?_cons_succ] at hj
        rw [e3 j k' hj]; congr 1; omega
    · intro k' hk'
      simp only [List.mem_cons, not_or] at hk'
      rw [e4 k' hk'.2, List.getElem?_set_ne]
      intro e; apply hk'.1; rw [e]

theorem filterMap_id_all (os : List (Option Nat)) (h : ∀ x ∈ os, x.isSome) (v : Nat) :
    (os.filterMap id)[v]? = os[v]?.bind id := by
  induction os generalizing v with
  | nil => simp
  | cons o os ih =>
    cases o with
    | none => simp at h
    | some k =>
      cases v with
      | zero => simp
      | succ v => exact ih (fun x hx => h x (by simp [hx])) v

theorem initial_between (p : Problem V) : Between p ⟨List.replicate p.numLabels.length none, [], 0,
    List.replicate p.numLabels.length 0⟩ (fun _ => .unvisited) := by
  refine ⟨rfl, ⟨by simp, by simp, ?_, by simp, ?_, ?_, ?_, by simp, ?_⟩, _, 0, Search.init 0⟩
  · intro v hv; simp [hv]
  · intro v k hk
    simp only [List.getElem?_replicate] at hk
    split at hk <;> simp at hk
  · intro v w k hk
    simp only [List.getElem?_replicate] at hk
    split at hk <;> simp at hk
  · simp [List.countP_replicate]
  · intro v hv; simp [hv]

/-- The constructor on a forest. -/
theorem construct_spec (hr : Represents gm p) (hA : (bipartite (scopesOf p)).IsAcyclic)
    (h2 : ∀ t ∈ p.terms, t.vars.length ≤ 2) {roots : List Nat} (hroots : RootsOK p roots) :
    ∃ d, construct gm roots = some d ∧ Numbering p d.order d.nodes ∧ d.started = false ∧
      d.values.length = p.numLabels.length ∧ d.states.length = p.numLabels.length ∧
      ∀ v n : Nat, p.numLabels[v]? = some n → ∃ srow, d.states[v]? = some srow ∧
        srow.length = n * (List.range p.numLabels.length).countP (fun c => decide (Child p d.order v c)) := by
  have hnv : gm.numberOfVariables = p.numLabels.length := by rw [GM.numberOfVariables, hr.labels]
  obtain ⟨s, fa, e1, hb, hall⟩ := orderLoop_spec hr hA h2 hroots p.numLabels.length 0 [] roots _ _ (by omega) (by simp) (by simp)
    (by simp) (initial_between p) (by simp) (by omega) (by simp)
  obtain ⟨D, r, hi⟩ := hb.inv
  have ho := hb.ord
  have hsome : ∀ v, v < p.numLabels.length → ∃ k, s.order[v]? = some (some k) := fun v hv => order_of_visited ho (hall v hv)
  have hcount : s.count = p.numLabels.length := by
    rw [← ho.cnt, ← ho.lenO, List.countP_eq_length]
    intro x hx
    obtain ⟨v, hv, rfl⟩ := List.getElem_of_mem hx
    obtain ⟨k, hk⟩ := hsome v (by rw [← ho.lenO]; exact hv)
    rw [List.getElem?_eq_getElem hv] at hk
    injection hk with hk
    rw [hk]; rfl
  have hmem : ∀ x ∈ s.order, ∃ k, x = some k ∧ k < p.numLabels.length := by
    intro x hx
    obtain ⟨v, hv, rfl⟩ := List.getElem_of_mem hx
    obtain ⟨k, hk⟩ := hsome v (by rw [← ho.lenO]; exact hv)
    have := ho.lt v k hk
    rw [List.getElem?_eq_getElem hv] at hk
    injection hk with hk
    exact ⟨k, hk, by omega⟩
  have hget : ∀ v k : Nat, (s.order.filterMap id)[v]? = some k ↔ s.order[v]? = some (some k) := by
    intro v k
    rw [filterMap_id_all _ (fun x hx => by obtain ⟨k, rfl, _⟩ := hmem x hx; rfl)]
    cases h : s.order[v]? with
    | none => simp
    | some x => simp
  have hnodup : (s.order.filterMap id).Nodup := by
    rw [List.nodup_iff_injective_getElem]
    rintro ⟨a, ha⟩ ⟨b, hb'⟩ hab
    simp only at hab
    have h1 := (hget a _).mp (List.getElem?_eq_getElem ha)
    have h3 := (hget b _).mp (List.getElem?_eq_getElem hb')
    rw [hab] at h1
    have := ho.inj a b _ h1 h3
    subst this; rfl
  have hlenF : (s.order.filterMap id).length = p.numLabels.length := by
    rw [← ho.lenO]
    have : ∀ os : List (Option Nat), (∀ x ∈ os, ∃ k, x = some k ∧ k < p.numLabels.length) → (os.filterMap id).length = os.length := by
      intro os
      induction os with
      | nil => simp
      | cons o os ih =>
        intro h
        obtain ⟨k, rfl, _⟩ := h o (by simp)
        exact congrArg (· + 1) (ih (fun x hx => h x (by simp [hx])))
    exact this _ hmem
  obtain ⟨nodes, f1, f2, f3, f4⟩ := fillOrdered_spec p.numLabels.length s.order 0
    (List.replicate p.numLabels.length p.numLabels.length) (by simp) hmem hnodup
  have hat : ∀ v k : Nat, (s.order.filterMap id)[v]? = some k → nodes[k]? = some v := by
    intro v k hvk
    have := f3 v k ((hget v k).mp hvk)
    simpa using this
  have hata : ∀ v k : Nat, (s.order.filterMap id)[v]? = some k ↔ nodes[k]? = some v := by
    intro v k
    refine ⟨hat v k, ?_⟩
    intro hk
    have hkl : k < p.numLabels.length := by rw [← f2]; exact (List.getElem?_eq_some_iff.mp hk).1
    -- every number below n is used
    have hperm : (s.order.filterMap id).Perm (List.range p.numLabels.length) := by
      refine (List.Nodup.subperm hnodup ?_).perm_of_length_le ?_
      · intro x hx
        obtain ⟨o, ho', he⟩ := List.mem_filterMap.mp hx
        obtain ⟨k', rfl, hlt⟩ := hmem _ ho'
        cases he
        exact List.mem_range.mpr hlt
      · rw [hlenF, List.length_range]
    have hkm : k ∈ s.order.filterMap id := hperm.mem_iff.mpr (List.mem_range.mpr hkl)
    obtain ⟨v', hv', he⟩ := List.getElem_of_mem hkm
    have h1 : (s.order.filterMap id)[v']? = some k := by rw [List.getElem?_eq_getElem hv', he]
    have := hat v' k h1
    rw [hk] at this
    cases this
    exact h1
  -- father edges and the numbering
  have hedge : ∀ x y i j : Nat, (∃ f, PairTerm p f x y) → (s.order.filterMap id)[x]? = some i →
      (s.order.filterMap id)[y]? = some j → i < j → fa y = .of x := by
    rintro x y i j ⟨f, hf⟩ hx hy hij
    have hrg := hf.range hr
    rcases hi.processed x (hall x hrg.1) (by simp) (by simp) y ⟨hrg.2.2, f, hf⟩ with h | h
    · exact h
    · obtain ⟨i', j', q1, q2, q3⟩ := ho.up y x h
      rw [hget] at hx hy
      rw [hx] at q2
      rw [hy] at q1
      cases q1; cases q2
      omega
  refine ⟨⟨s.order.filterMap id, nodes, List.replicate p.numLabels.length [],
    (gm.numLabels.zip s.children).map (fun c => List.replicate (c.1 * c.2) none), false⟩, ?_, ⟨hlenF, f2, hata, ?_⟩, rfl,
    by simp, by simp [hr.labels, ho.lenC], ?_⟩
  · unfold construct
    simp only [hnv]
    rw [e1]
    simp only
    rw [f1]
  · intro c f u f' u' i j i' hf hf' hc hu hu' hji hji'
    have a1 := hedge u c j i ⟨f, hf⟩ hu hc hji
    have a2 := hedge u' c i' i ⟨f', hf'⟩ hu' hc hji'
    rw [a1] at a2
    injection a2 with a2
    subst a2
    exact ⟨pair_unique hA (hf.range hr).2.2 hf hf', rfl⟩
  · intro v n hn
    have hv : v < p.numLabels.length := (List.getElem?_eq_some_iff.mp hn).1
    refine ⟨List.replicate (n * (List.range p.numLabels.length).countP (fun c => decide (fa c = .of v))) none, ?_, ?_⟩
    · simp only [List.getElem?_map, hr.labels, List.getElem?_zip_eq_some, Option.map_eq_some_iff, Prod.exists]
      exact ⟨n, _, ⟨hn, ho.chld v hv⟩, rfl⟩
    · simp only [List.length_replicate]
      congr 1
      apply List.countP_congr
      intro c hc
      simp only [decide_eq_true_eq]
      constructor
      · intro h
        obtain ⟨i, j, q1, q2, q3⟩ := ho.up v c h
        obtain ⟨⟨_, hp⟩, _⟩ := hi.edge v c h
        exact ⟨hp, i, j, (hget v i).mpr q1, (hget c j).mpr q2, q3⟩
      · rintro ⟨hp, i, j, q1, q2, q3⟩
        exact hedge v c i j hp q1 q2 q3

end OpenGM.DP
