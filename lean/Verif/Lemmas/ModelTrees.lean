import Verif.Model.ModelTrees
import Verif.Spec.ModelTrees
import Verif.Lemmas.SwendsenWangCluster
import Mathlib.Tactic.ByContra
/-
modelTrees: the invariant of the removal of leafs.
-/
namespace OpenGM
namespace ModelTrees
open Spec SwendsenWang
variable {V : Type} {gm : GM V} {p : Problem V}

theorem get_set {A : Type} (l : List A) (i j : Nat) (x : A) (hi : i < l.length) : (l.set i x)[j]? = if j = i then some x else l[j]? := by
  rw [List.getElem?_set]
  by_cases h : i = j
  · subst h; simp [hi]
  · rw [if_neg h, if_neg (fun h' => h h'.symm)]

/-- The invariant of the loop: `done` are the variables removed, the last one first. -/
structure Inv (p : Problem V) (n : Nat) (st : State) (done : List Nat) (par : Nat → Nat) : Prop where
  lenN : st.neighbors.length = n
  lenD : st.degree.length = n
  lenR : st.roots.length = n
  lenP : st.parents.length = n
  nodup : done.Nodup
  range : ∀ v ∈ done, v < n
  nb : ∀ v, v < n → v ∉ done → ∃ l, st.neighbors[v]? = some l ∧ l.Nodup ∧ (∀ w, w ∈ l ↔ p.adjacent v w = true ∧ w ∉ done) ∧ st.degree[v]? = some l.length
  lfNodup : st.leafs.Nodup
  lf : ∀ v ∈ st.leafs, v < n ∧ v ∉ done ∧ ∃ d, d ≤ 1 ∧ st.degree[v]? = some d
  one : ∀ v, v < n → v ∉ done → st.degree[v]? = some 1 → v ∈ st.leafs
  parents : ∀ v, v < n → st.parents[v]? = some (par v)
  roots : ∀ v, v < n → st.roots[v]? = some (decide (par v = v))
  pdone : ∀ v ∈ done, p.adjacent v (par v) = true ∧ ∀ w, p.adjacent v w = true → w = par v ∨ (w ∈ done ∧ par w = v)
  order : done.Pairwise (fun a b => par a ≠ b)
  free : ∀ v, v < n → v ∉ done → (par v = v ∧ ∃ u ∈ done, par u = v) ∨ (par v = n ∧ ∀ u ∈ done, par u ≠ v)

theorem adjacent_ne {v w : Nat} (h : p.adjacent v w = true) : v ≠ w := by
  simp only [Problem.adjacent, Bool.and_eq_true, decide_eq_true_eq] at h
  exact h.1

theorem removeLeaf_spec {n : Nat} (hr : ∀ v w, p.adjacent v w = true → v < n ∧ w < n) {st : State} {done : List Nat} {par : Nat → Nat} (h : Inv p n st done par) {l : Nat} {leafs : List Nat}
    (hl : st.leafs = l :: leafs) (hd : st.degree[l]? = some 1) :
    ∃ st' par', removeLeaf { st with leafs := leafs } l = some st' ∧ Inv p n st' (l :: done) par' ∧ st'.leafs.length ≤ leafs.length + 1 := by
  obtain ⟨hln, hld, _⟩ := h.lf l (by rw [hl]; simp)
  have hnd := h.lfNodup
  rw [hl, List.nodup_cons] at hnd
  obtain ⟨ls, n1, n2, n3, n4⟩ := h.nb l hln hld
  obtain ⟨w, rfl⟩ : ∃ w, ls = [w] := by
    rw [hd] at n4
    have := Option.some.inj n4
    exact List.length_eq_one_iff.mp this.symm
  obtain ⟨hadj, hwd⟩ := (n3 w).mp (by simp)
  have hwn := (hr l w hadj).2
  have hlw : l ≠ w := adjacent_ne hadj
  obtain ⟨ws, m1, m2, m3, m4⟩ := h.nb w hwn hwd
  have hlws : l ∈ ws := (m3 l).mpr ⟨by rw [adjacent_symm]; exact hadj, hld⟩
  obtain ⟨dw, hdw⟩ : ∃ dw, ws.length = dw + 1 := ⟨ws.length - 1, by have := List.length_pos_of_mem hlws; omega⟩
  rw [hdw] at m4
  have hlR := h.lenR
  have hlP := h.lenP
  have hlD := h.lenD
  have hlN := h.lenN
  obtain ⟨par', hpar'⟩ : ∃ par' : Nat → Nat, par' = fun v => if v = w then w else if v = l then w else par v := ⟨_, rfl⟩
  have pw : par' w = w := by rw [hpar']; simp
  have pl : par' l = w := by rw [hpar']; simp
  have po : ∀ v, v ≠ w → v ≠ l → par' v = par v := by intro v h1 h2; rw [hpar']; simp [h1, h2]
  have pd : ∀ v ∈ done, par' v = par v := by
    intro v hv
    exact po v (fun h' => hwd (h' ▸ hv)) (fun h' => hld (h' ▸ hv))
  refine ⟨⟨st.neighbors.set w (ws.erase l), st.degree.set w dw, if dw = 1 then w :: leafs else leafs, (st.roots.set w true).set l false, (st.parents.set l w).set w w⟩, par', ?_, ?_, ?_⟩
  · unfold removeLeaf
    simp only
    rw [n1]
    simp only
    rw [setAt_of_lt _ (by omega)]
    simp only
    rw [setAt_of_lt _ (by simp; omega), setAt_of_lt _ (by omega)]
    simp only
    rw [setAt_of_lt _ (by simp; omega), m4, m1]
    simp only
    rw [if_pos hlws, setAt_of_lt _ (by omega), setAt_of_lt _ (by omega)]
  · constructor
    · simp [hlN]
    · simp [hlD]
    · simp [hlR]
    · simp [hlP]
    · exact List.nodup_cons.mpr ⟨hld, h.nodup⟩
    · intro v hv
      rcases List.mem_cons.mp hv with rfl | hv
      · exact hln
      · exact h.range v hv
    · intro v hv hvd
      rw [List.mem_cons, not_or] at hvd
      obtain ⟨vs, k1, k2, k3, k4⟩ := h.nb v hv hvd.2
      by_cases hvw : v = w
      · subst hvw
        rw [m1] at k1
        cases k1
        refine ⟨ws.erase l, ?_, m2.erase l, ?_, ?_⟩
        · simp only; rw [get_set _ _ _ _ (by omega), if_pos rfl]
        · intro u
          rw [m2.mem_erase_iff, m3]
          simp only [List.mem_cons, not_or]
          tauto
        · simp only; rw [get_set _ _ _ _ (by omega), if_pos rfl, List.length_erase_of_mem hlws, hdw]; rfl
      · refine ⟨vs, ?_, k2, ?_, ?_⟩
        · simp only; rw [get_set _ _ _ _ (by omega), if_neg hvw, k1]
        · intro u
          rw [k3]
          simp only [List.mem_cons, not_or]
          constructor
          · rintro ⟨a, b⟩
            refine ⟨a, ?_, b⟩
            rintro rfl
            have := (n3 v).mpr ⟨by rw [adjacent_symm]; exact a, hvd.2⟩
            rw [List.mem_singleton] at this
            exact hvw this
          · rintro ⟨a, _, b⟩
            exact ⟨a, b⟩
        · simp only; rw [get_set _ _ _ _ (by omega), if_neg hvw, k4]
    · simp only
      split
      · rename_i h1
        refine List.nodup_cons.mpr ⟨?_, hnd.2⟩
        intro hwl'
        obtain ⟨_, _, d, d1, d2⟩ := h.lf w (by rw [hl]; simp [hwl'])
        rw [m4] at d2
        have := Option.some.inj d2
        omega
      · exact hnd.2
    · have hold : ∀ v ∈ leafs, v < n ∧ v ∉ l :: done ∧ ∃ d, d ≤ 1 ∧ (st.degree.set w dw)[v]? = some d := by
        intro v hv
        obtain ⟨a, b, d, d1, d2⟩ := h.lf v (by rw [hl]; simp [hv])
        refine ⟨a, ?_, ?_⟩
        · rw [List.mem_cons, not_or]
          exact ⟨fun h' => hnd.1 (h' ▸ hv), b⟩
        · rw [get_set _ _ _ _ (by omega)]
          by_cases hvw : v = w
          · subst hvw
            rw [m4] at d2
            have := Option.some.inj d2
            exact ⟨_, by omega, if_pos rfl⟩
          · exact ⟨d, d1, by rw [if_neg hvw, d2]⟩
      simp only
      split
      · rename_i h1
        intro v hv
        rcases List.mem_cons.mp hv with rfl | hv
        · refine ⟨hwn, ?_, dw, by omega, ?_⟩
          · rw [List.mem_cons, not_or]; exact ⟨hlw.symm, hwd⟩
          · rw [get_set _ _ _ _ (by omega), if_pos rfl]
        · exact hold v hv
      · exact hold
    · intro v hv hvd hdeg
      rw [List.mem_cons, not_or] at hvd
      simp only at hdeg ⊢
      rw [get_set _ _ _ _ (by omega)] at hdeg
      by_cases hvw : v = w
      · rw [if_pos hvw] at hdeg
        rw [if_pos (Option.some.inj hdeg), hvw]
        simp
      · rw [if_neg hvw] at hdeg
        have := h.one v hv hvd.2 hdeg
        rw [hl, List.mem_cons] at this
        have := this.resolve_left hvd.1
        split
        · simp [this]
        · exact this
    · intro v hv
      simp only
      rw [get_set _ _ _ _ (by simp; omega), get_set _ _ _ _ (by omega)]
      by_cases hvw : v = w
      · subst hvw; rw [if_pos rfl, pw]
      · rw [if_neg hvw]
        by_cases hvl : v = l
        · subst hvl; rw [if_pos rfl, pl]
        · rw [if_neg hvl, h.parents v hv, po v hvw hvl]
    · intro v hv
      simp only
      rw [get_set _ _ _ _ (by simp; omega), get_set _ _ _ _ (by omega)]
      by_cases hvl : v = l
      · subst hvl; rw [if_pos rfl, pl, decide_eq_false (fun h' => hlw h'.symm)]
      · rw [if_neg hvl]
        by_cases hvw : v = w
        · subst hvw; rw [if_pos rfl, pw]; simp
        · rw [if_neg hvw, h.roots v hv, po v hvw hvl]
    · intro v hv
      rcases List.mem_cons.mp hv with rfl | hv
      · rw [pl]
        refine ⟨hadj, fun u hu => ?_⟩
        by_cases hud : u ∈ done
        · right
          refine ⟨by simp [hud], ?_⟩
          rw [pd u hud]
          rcases (h.pdone u hud).2 v (by rw [adjacent_symm]; exact hu) with h' | h'
          · exact h'.symm
          · exact absurd h'.1 hld
        · left
          have := (n3 u).mpr ⟨hu, hud⟩
          exact List.mem_singleton.mp this
      · rw [pd v hv]
        refine ⟨(h.pdone v hv).1, fun u hu => ?_⟩
        rcases (h.pdone v hv).2 u hu with h' | ⟨h', h''⟩
        · exact Or.inl h'
        · exact Or.inr ⟨by simp [h'], by rw [pd u h', h'']⟩
    · refine List.pairwise_cons.mpr ⟨?_, ?_⟩
      · intro b hb
        rw [pl]
        exact fun h' => hwd (h' ▸ hb)
      · refine h.order.imp_of_mem ?_
        intro a b ha _ hab
        rw [pd a ha]
        exact hab
    · intro v hv hvd
      rw [List.mem_cons, not_or] at hvd
      by_cases hvw : v = w
      · subst hvw
        exact Or.inl ⟨pw, l, by simp, pl⟩
      · rw [po v hvw hvd.1]
        rcases h.free v hv hvd.2 with ⟨a, u, b, c⟩ | ⟨a, b⟩
        · exact Or.inl ⟨a, u, by simp [b], by rw [pd u b, c]⟩
        · refine Or.inr ⟨a, fun u hu => ?_⟩
          rcases List.mem_cons.mp hu with rfl | hu
          · rw [pl]; exact fun h' => hvw h'.symm
          · rw [pd u hu]; exact b u hu
  · simp only
    split
    · simp
    · omega

theorem leafLoop_spec {n : Nat} (hr : ∀ v w, p.adjacent v w = true → v < n ∧ w < n) : ∀ (k : Nat) (st : State) (done : List Nat) (par : Nat → Nat), Inv p n st done par →
    2 * (n - done.length) + st.leafs.length < k → ∃ st' done' par', leafLoop k st = some st' ∧ Inv p n st' done' par' ∧ st'.leafs = []
  | 0, _, _, _, _, hk => by omega
  | k + 1, st, done, par, h, hk => by
    unfold leafLoop
    cases hl : st.leafs with
    | nil => exact ⟨st, done, par, rfl, h, hl⟩
    | cons l leafs =>
      simp only
      obtain ⟨hln, hld, d, d1, d2⟩ := h.lf l (by rw [hl]; simp)
      rw [d2]
      simp only
      rw [hl] at hk
      simp only [List.length_cons] at hk
      by_cases hd : d > 0
      · rw [if_pos hd]
        have hd1 : d = 1 := by omega
        subst hd1
        obtain ⟨st', par', a1, a2, a3⟩ := removeLeaf_spec hr h hl d2
        rw [a1]
        have hlen : (l :: done).length ≤ n := by
          have hsub : (l :: done) ⊆ List.range n := by
            intro v hv
            exact List.mem_range.mpr (a2.range v hv)
          simpa using (List.subperm_of_subset a2.nodup hsub).length_le
        simp only [List.length_cons] at hlen
        exact leafLoop_spec hr k st' (l :: done) par' a2 (by simp only [List.length_cons]; omega)
      · rw [if_neg hd]
        have hd0 : d = 0 := by omega
        subst hd0
        refine leafLoop_spec hr k { st with leafs := leafs } done par ?_ (by simp only; omega)
        have hnd := h.lfNodup
        rw [hl, List.nodup_cons] at hnd
        exact { h with
          lfNodup := hnd.2
          lf := fun v hv => h.lf v (by rw [hl]; simp [hv])
          one := fun v hv hvd hdeg => by
            have := h.one v hv hvd hdeg
            rw [hl, List.mem_cons] at this
            refine this.resolve_left ?_
            rintro rfl
            rw [d2] at hdeg
            exact absurd (Option.some.inj hdeg) (by omega) }

theorem initLoop_spec (n : Nat) (neighbors : List (List Nat)) (hN : neighbors.length = n) : ∀ (m i : Nat) (degree parents leafs : List Nat), i + m = n → degree.length = n → parents.length = n →
    ∃ degree' parents' leafs', initLoop n neighbors (List.range' i m) degree parents leafs = some (degree', parents', leafs') ∧ degree'.length = n ∧ parents'.length = n ∧
      (∀ v : Nat, v < n → i ≤ v → degree'[v]? = (neighbors[v]?).map List.length ∧ parents'[v]? = some n) ∧ (∀ v : Nat, v < i → degree'[v]? = degree[v]? ∧ parents'[v]? = parents[v]?) ∧
      leafs' = ((List.range' i m).filter (fun v => (neighbors[v]?).map List.length = some 1)).reverse ++ leafs
  | 0, i, degree, parents, leafs, hi, hd, hp => ⟨degree, parents, leafs, rfl, hd, hp, fun v hv hiv => by omega, fun v hv => ⟨rfl, rfl⟩, by simp⟩
  | m + 1, i, degree, parents, leafs, hi, hd, hp => by
    have hgi : neighbors[i]? = some (neighbors[i]'(by omega)) := List.getElem?_eq_getElem _
    generalize neighbors[i]'(by omega) = l at hgi
    obtain ⟨degree', parents', leafs', a1, a2, a3, a4, a5, a6⟩ := initLoop_spec n neighbors hN m (i + 1) (degree.set i l.length) (parents.set i n) (if l.length = 1 then i :: leafs else leafs)
      (by omega) (by simp [hd]) (by simp [hp])
    refine ⟨degree', parents', leafs', ?_, a2, a3, ?_, ?_, ?_⟩
    · rw [List.range'_succ, initLoop, hgi]
      simp only
      rw [setAt_of_lt _ (by omega), setAt_of_lt _ (by omega)]
      exact a1
    · intro v hv hiv
      by_cases hvi : v = i
      · subst hvi
        obtain ⟨b1, b2⟩ := a5 v (by omega)
        rw [b1, b2, get_set _ _ _ _ (by omega), get_set _ _ _ _ (by omega), if_pos rfl, if_pos rfl, hgi]
        exact ⟨rfl, rfl⟩
      · exact a4 v hv (by omega)
    · intro v hv
      obtain ⟨b1, b2⟩ := a5 v (by omega)
      rw [b1, b2, get_set _ _ _ _ (by omega), get_set _ _ _ _ (by omega), if_neg (by omega), if_neg (by omega)]
      exact ⟨rfl, rfl⟩
    · rw [a6, List.range'_succ]
      by_cases h1 : l.length = 1
      · rw [if_pos h1, List.filter_cons_of_pos (by rw [hgi]; simp [h1])]
        simp
      · rw [if_neg h1, List.filter_cons_of_neg (by rw [hgi]; simp [h1])]

theorem leafs_spec (h : Represents gm p) : ∃ neighbors degree parents leafs st done par, gm.factorGraph.variableAdjacencyList = some neighbors ∧
    initLoop gm.numberOfVariables neighbors (List.range gm.numberOfVariables) (List.replicate gm.numberOfVariables 0) (List.replicate gm.numberOfVariables 0) [] = some (degree, parents, leafs) ∧
    leafLoop (3 * gm.numberOfVariables + 1) ⟨neighbors, degree, leafs, List.replicate gm.numberOfVariables false, parents⟩ = some st ∧
    Inv p p.numLabels.length st done par ∧ st.leafs = [] := by
  obtain ⟨neighbors, h1, ha⟩ := adj_spec h
  have hn : gm.numberOfVariables = p.numLabels.length := by unfold GM.numberOfVariables; rw [h.labels]
  rw [hn]
  obtain ⟨degree, parents, leafs, a1, a2, a3, a4, a5, a6⟩ := initLoop_spec (p.numLabels.length) neighbors ha.length p.numLabels.length 0 (List.replicate p.numLabels.length 0) (List.replicate p.numLabels.length 0) []
    (by omega) (by simp) (by simp)
  rw [← List.range_eq_range'] at a1 a6
  rw [List.append_nil] at a6
  have hinv : Inv p p.numLabels.length ⟨neighbors, degree, leafs, List.replicate p.numLabels.length false, parents⟩ [] (fun _ => p.numLabels.length) := by
    constructor
    · exact ha.length
    · exact a2
    · simp
    · exact a3
    · exact List.nodup_nil
    · simp
    · intro v hv _
      obtain ⟨l, l1, l2, l3⟩ := ha.list v hv
      refine ⟨l, l1, l2.imp (fun h => Nat.ne_of_lt h), fun w => by rw [l3]; simp, ?_⟩
      simp only
      rw [(a4 v hv (Nat.zero_le _)).1, l1]
      rfl
    · simp only
      rw [a6]
      exact List.nodup_reverse.mpr (List.nodup_range.filter _)
    · intro v hv
      simp only [a6, List.mem_reverse, List.mem_filter, List.mem_range, decide_eq_true_eq] at hv
      exact ⟨hv.1, by simp, 1, le_refl _, by simp only; rw [(a4 v hv.1 (Nat.zero_le _)).1, hv.2]⟩
    · intro v hv _ hdeg
      simp only at hdeg
      rw [(a4 v hv (Nat.zero_le _)).1] at hdeg
      simp only [a6, List.mem_reverse, List.mem_filter, List.mem_range, decide_eq_true_eq]
      exact ⟨hv, hdeg⟩
    · intro v hv
      exact (a4 v hv (Nat.zero_le _)).2
    · intro v hv
      simp only
      rw [List.getElem?_replicate, if_pos hv, decide_eq_false (by omega)]
    · simp
    · exact List.Pairwise.nil
    · intro v hv _
      exact Or.inr ⟨rfl, by simp⟩
  have hleafs : leafs.length ≤ p.numLabels.length := by
    rw [a6, List.length_reverse]
    have := List.length_filter_le (fun v => decide (Option.map List.length neighbors[v]? = some 1)) (List.range p.numLabels.length)
    simpa using this
  obtain ⟨st, done, par, b1, b2, b3⟩ := leafLoop_spec ha.range (3 * p.numLabels.length + 1) _ [] _ hinv (by simp only [List.length_nil]; omega)
  exact ⟨neighbors, degree, parents, leafs, st, done, par, h1, a1, b1, b2, b3⟩

/-! ### following the parents -/

theorem follow_spec {n : Nat} {st : State} {done : List Nat} {par : Nat → Nat} (hr : ∀ v w, p.adjacent v w = true → v < n ∧ w < n) (h : Inv p n st done par) :
    ∀ (k : Nat) (pre : List Nat) (v : Nat) (post : List Nat), done = pre ++ v :: post → pre.length + 1 < k → ∃ r, follow st.parents k v = some r ∧ r < n ∧ par r = r ∧ ∃ j, par^[j] v = r
  | 0, _, _, _, _, hk => by omega
  | k + 1, pre, v, post, hd, hk => by
    have hv : v ∈ done := by rw [hd]; simp
    obtain ⟨hadj, _⟩ := h.pdone v hv
    have hw := (hr _ _ hadj).2
    have hstep : follow st.parents (k + 1) v = follow st.parents k (par v) := by
      rw [follow, h.parents v (h.range v hv)]
      simp only
      rw [if_pos (adjacent_ne hadj).symm]
    rw [hstep]
    by_cases hpd : par v ∈ done
    · have hpre : par v ∈ pre := by
        have ho := h.order
        rw [hd, List.pairwise_append] at ho
        rw [hd, List.mem_append, List.mem_cons] at hpd
        rcases hpd with h' | h' | h'
        · exact h'
        · exact absurd h'.symm (adjacent_ne hadj)
        · exact absurd rfl ((List.pairwise_cons.mp ho.2.1).1 _ h')
      obtain ⟨a, b, hab⟩ := List.append_of_mem hpre
      obtain ⟨r, r1, r2, r3, j, r4⟩ := follow_spec hr h k a (par v) (b ++ v :: post) (by rw [hd, hab]; simp) (by rw [hab] at hk; simp at hk; omega)
      exact ⟨r, r1, r2, r3, j + 1, r4⟩
    · have hroot : par (par v) = par v := by
        rcases h.free (par v) hw hpd with h' | h'
        · exact h'.1
        · exact absurd rfl (h'.2 v hv)
      refine ⟨par v, ?_, hw, hroot, 1, rfl⟩
      obtain ⟨k', rfl⟩ : ∃ k', k = k' + 1 := ⟨k - 1, by omega⟩
      rw [follow, h.parents _ hw, hroot]
      simp

theorem done_length {n : Nat} {st : State} {done : List Nat} {par : Nat → Nat} (h : Inv p n st done par) : done.length ≤ n := by
  have hsub : done ⊆ List.range n := fun v hv => List.mem_range.mpr (h.range v hv)
  simpa using (List.subperm_of_subset h.nodup hsub).length_le

theorem root_of {n : Nat} {st : State} {done : List Nat} {par : Nat → Nat} (hr : ∀ v w, p.adjacent v w = true → v < n ∧ w < n) (h : Inv p n st done par) {v : Nat} (hv : v < n) (hpv : par v ≠ n) :
    ∃ r, follow st.parents (n + 1) v = some r ∧ r < n ∧ par r = r ∧ ∃ j, par^[j] v = r := by
  by_cases hd : v ∈ done
  · obtain ⟨a, b, hab⟩ := List.append_of_mem hd
    refine follow_spec hr h (n + 1) a v b hab ?_
    have := done_length h
    rw [hab] at this
    simp at this
    omega
  · rcases h.free v hv hd with h' | h'
    · refine ⟨v, ?_, hv, h'.1, 0, rfl⟩
      rw [follow, h.parents v hv, h'.1]
      simp
    · exact absurd h'.1 hpv

theorem hangingTrees {st : State} {done : List Nat} {par : Nat → Nat} (hr : ∀ v w, p.adjacent v w = true → v < p.numLabels.length ∧ w < p.numLabels.length)
    (h : Inv p p.numLabels.length st done par) (hl : st.leafs = []) : HangingTrees p par := by
  have hdone : ∀ v, v < p.numLabels.length → (v ∈ done ↔ par v ≠ p.numLabels.length ∧ par v ≠ v) := by
    intro v hv
    constructor
    · intro hd
      obtain ⟨hadj, _⟩ := h.pdone v hd
      have := (hr _ _ hadj).2
      exact ⟨by omega, (adjacent_ne hadj).symm⟩
    · rintro ⟨h1, h2⟩
      by_contra hd
      rcases h.free v hv hd with h' | h'
      · exact h2 h'.1
      · exact h1 h'.1
  have hnot : ∀ v, v < p.numLabels.length → (v ∉ done ↔ par v = v ∨ par v = p.numLabels.length) := by
    intro v hv
    rw [hdone v hv]
    tauto
  constructor
  · intro v hv h1 h2
    exact (h.pdone v ((hdone v hv).mpr ⟨h1, h2⟩)).1
  · intro v w hv h1 h2 hadj
    rcases (h.pdone v ((hdone v hv).mpr ⟨h1, h2⟩)).2 w hadj with h' | h'
    · exact Or.inl h'
    · exact Or.inr h'.2
  · intro v hv h1
    obtain ⟨r, _, r2, r3, k, r4⟩ := root_of hr h hv h1
    exact ⟨k, by rw [r4]; exact r2, by rw [r4]; exact r3⟩
  · intro v hv h1
    have hvd := (hnot v hv).mpr h1
    constructor
    · intro hvv
      rcases h.free v hv hvd with ⟨_, u, hu, hpu⟩ | ⟨h', _⟩
      · exact ⟨u, h.range u hu, fun h' => hvd (h' ▸ hu), hpu⟩
      · omega
    · rintro ⟨u, hu, huv, hpu⟩
      have hud : u ∈ done := (hdone u hu).mpr ⟨by omega, by omega⟩
      rcases h.free v hv hvd with h' | ⟨_, h'⟩
      · exact h'.1
      · exact absurd hpu (h' u hud)
  · rintro v hv h1 ⟨w, ⟨hw, hw'⟩, huniq⟩
    have hvd := (hnot v hv).mpr h1
    obtain ⟨l, _, l2, l3, l4⟩ := h.nb v hv hvd
    have hlen : l = [w] := by
      have hmem : ∀ u, u ∈ l ↔ u = w := by
        intro u
        rw [l3]
        constructor
        · rintro ⟨a, b⟩
          exact huniq u ⟨a, (hnot u (hr _ _ a).2).mp b⟩
        · rintro rfl
          exact ⟨hw, (hnot u (hr _ _ hw).2).mpr hw'⟩
      match l, l2, hmem with
      | [], _, hmem => exact absurd ((hmem w).mpr rfl) (by simp)
      | [a], _, hmem => rw [(hmem a).mp (by simp)]
      | a :: b :: l, l2, hmem =>
        have h1 := (hmem a).mp (by simp)
        have h2 := (hmem b).mp (by simp)
        rw [h1, h2] at l2
        simp at l2
    rw [hlen] at l4
    have := h.one v hv hvd l4
    rw [hl] at this
    simp at this

/-! ### numbering the roots -/

theorem numberRoots_spec (roots : List Bool) (f : Nat → Bool) : ∀ (is : List Nat) (rep : List (Nat × Nat)) (k : Nat), (∀ i ∈ is, roots[i]? = some (f i)) →
    numberRoots roots is rep k = some (rep ++ (is.filter f).zipIdx k, k + (is.filter f).length)
  | [], rep, k, _ => by simp [numberRoots]
  | i :: is, rep, k, h => by
    rw [numberRoots, h i (by simp)]
    cases hf : f i with
    | true =>
      simp only
      rw [numberRoots_spec roots f is _ _ (fun j hj => h j (by simp [hj])), List.filter_cons_of_pos hf]
      simp only [List.zipIdx_cons, List.append_assoc, List.singleton_append, List.length_cons]
      congr 2
      omega
    | false =>
      simp only
      rw [numberRoots_spec roots f is _ _ (fun j hj => h j (by simp [hj])), List.filter_cons_of_neg (by simp [hf])]

theorem find_zipIdx (r : Nat) : ∀ (l : List Nat) (k : Nat), r ∈ l → (l.zipIdx k).find? (fun e => e.1 == r) = some (r, k + l.idxOf r)
  | [], _, h => by simp at h
  | a :: l, k, h => by
    rw [List.zipIdx_cons]
    by_cases ha : a = r
    · subst ha
      simp
    · rw [List.find?_cons_of_neg (by simpa using ha), find_zipIdx r l (k + 1) ((List.mem_cons.mp h).resolve_left (fun h' => ha h'.symm)), List.idxOf_cons_ne _ ha]
      congr 2
      omega

theorem rootsLoop_spec (roots : List Bool) (f : Nat → Bool) : ∀ (is : List Nat) (j : Nat) (out : List Nat), (∀ i ∈ is, roots[i]? = some (f i)) → out.length = j + (is.filter f).length →
    rootsLoop roots is j out = some (out.take j ++ is.filter f)
  | [], j, out, _, hl => by simp at hl; simp [rootsLoop, ← hl]
  | i :: is, j, out, h, hl => by
    rw [rootsLoop, h i (by simp)]
    cases hf : f i with
    | true =>
      rw [List.filter_cons_of_pos hf] at hl ⊢
      simp only [List.length_cons] at hl
      simp only
      rw [setAt_of_lt _ (by omega)]
      simp only
      rw [rootsLoop_spec roots f is (j + 1) _ (fun j hj => h j (by simp [hj])) (by simp; omega)]
      congr 1
      rw [List.take_add_one, List.take_set_of_le (le_refl j), List.getElem?_set_self (by omega)]
      simp
    | false =>
      rw [List.filter_cons_of_neg (by simp [hf])] at hl ⊢
      exact rootsLoop_spec roots f is j out (fun j hj => h j (by simp [hj])) hl

theorem nodesLoop_spec (m : Trees) (par : Nat → Nat) (idx : Nat → Nat) : ∀ (is : List Nat) (out : List (List Nat)), (∀ i ∈ is, m.parents[i]? = some (par i)) →
    (∀ i ∈ is, par i ≠ m.numberOfVariables → ∃ r, m.treeOfVariable i = some r ∧ m.representive r = idx i ∧ idx i < out.length) →
    ∃ out', nodesLoop m is out = some out' ∧ out'.length = out.length ∧ ∀ (j : Nat) (l : List Nat), out[j]? = some l → out'[j]? = some (l ++ is.filter (fun i => decide (par i ≠ m.numberOfVariables ∧ idx i = j)))
  | [], out, _, _ => ⟨out, rfl, rfl, fun j l hl => by simp [hl]⟩
  | i :: is, out, hp, ht => by
    rw [nodesLoop, hp i (by simp)]
    simp only
    by_cases hpi : par i ≠ m.numberOfVariables
    · rw [if_pos hpi]
      obtain ⟨r, r1, r2, r3⟩ := ht i (by simp) hpi
      rw [r1]
      simp only
      rw [r2, List.getElem?_eq_getElem r3]
      simp only
      obtain ⟨out', o1, o2, o3⟩ := nodesLoop_spec m par idx is (out.set (idx i) (out[idx i] ++ [i])) (fun j hj => hp j (by simp [hj])) (fun j hj h => by
        obtain ⟨r, a, b, c⟩ := ht j (by simp [hj]) h
        exact ⟨r, a, b, by simpa using c⟩)
      refine ⟨out', o1, by rw [o2]; simp, fun j l hl => ?_⟩
      by_cases hj : j = idx i
      · subst hj
        rw [List.getElem?_eq_getElem r3] at hl
        have := Option.some.inj hl
        rw [o3 (idx i) (out[idx i] ++ [i]) (by rw [List.getElem?_set_self r3]), this, List.filter_cons_of_pos (by simp [hpi])]
        simp
      · rw [o3 j l (by rw [List.getElem?_set_ne (fun h => hj h.symm)]; exact hl), List.filter_cons_of_neg (by simp; intro _ h; exact hj h.symm)]
    · rw [if_neg hpi]
      obtain ⟨out', o1, o2, o3⟩ := nodesLoop_spec m par idx is out (fun j hj => hp j (by simp [hj])) (fun j hj h => ht j (by simp [hj]) h)
      refine ⟨out', o1, o2, fun j l hl => ?_⟩
      rw [o3 j l hl, List.filter_cons_of_neg (by simp at hpi; simp [hpi])]

end ModelTrees
end OpenGM
