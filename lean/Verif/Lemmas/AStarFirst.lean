import Verif.Lemmas.AStarRows
/-
Lemmas for the fast heuristic of A*: the first run over the factors.
-/
namespace OpenGM
namespace AStar
open Spec
variable {V : Type}

theorem callFactor_one {gm : GM V} {f : FactorRec} {t : Term V} (hm : FactorMatches gm f t) {v n j : Nat} (hv : t.vars = [v]) (hn : gm.numLabels[v]? = some n)
    (hj : j < n) (rest : List Nat) : gm.callFactor f (j :: rest) = some (t.table [j]) := by
  obtain ⟨fn, h1, h2, h3⟩ := hm.fn
  have hs : fn.shape = [n] := by rw [h2, hv]; simp [restrict, List.getD_eq_getElem?_getD, hn]
  unfold GM.callFactor
  rw [h1]
  simp only [callFn]
  rw [hs]
  simp only [inShape, hj, decide_true, Bool.true_and, if_true]
  rw [← h3 [j] (by rw [hs]; exact ⟨hj, trivial⟩)]
  simp

theorem callFactor_two {gm : GM V} {f : FactorRec} {t : Term V} (hm : FactorMatches gm f t) {v w n m j k : Nat} (hv : t.vars = [v, w]) (hn : gm.numLabels[v]? = some n)
    (hm' : gm.numLabels[w]? = some m) (hj : j < n) (hk : k < m) (rest : List Nat) : gm.callFactor f (j :: k :: rest) = some (t.table [j, k]) := by
  obtain ⟨fn, h1, h2, h3⟩ := hm.fn
  have hs : fn.shape = [n, m] := by rw [h2, hv]; simp [restrict, List.getD_eq_getElem?_getD, hn, hm']
  unfold GM.callFactor
  rw [h1]
  simp only [callFn]
  rw [hs]
  simp only [inShape, hj, hk, decide_true, Bool.true_and, if_true]
  rw [← h3 [j, k] (by rw [hs]; exact ⟨hj, hk, trivial⟩)]
  simp

/-- What the fast heuristic needs. -/
structure HCtx (e : Env V) (s : Solver V) (p : Problem V) : Prop where
  order : Order e.bop
  comm : e.o.IsCommMonoid
  stores : Stores s.gm p
  pairwise : ∀ t ∈ p.terms, t.vars.length ≤ 2
  positive : ∀ n ∈ p.numLabels, 0 < n
  trees : s.isTree.length = p.terms.length
  optimized : ∀ (i : Nat) (t : Term V) (v w n m : Nat), p.terms[i]? = some t → t.vars = [v, w] → p.numLabels[v]? = some n → p.numLabels[w]? = some m →
    ∃ (a : Marray.Arr V) (g : Nat → V), s.optimized[i]? = some (some a) ∧ ∀ j < n, a.get [j] = some (g j) ∧ ∀ k < m, e.bop (t.table [j, k]) (g j) = false

/-- Labeling `z` has the labels of the variables that are fixed. -/
structure Fits (p : Problem V) (labels : List (Option Nat)) (z : List Nat) : Prop where
  labeling : p.Labeling z
  length : labels.length = p.numLabels.length
  fixed : ∀ v l : Nat, labels[v]? = some (some l) → z[v]? = some l

/-- Two variables are open. -/
def TwoOpen (labels : List (Option Nat)) : Prop := ∃ v w : Nat, v ≠ w ∧ labels[v]? = some none ∧ labels[w]? = some none

/-- Factor `i` is in the tree and both its variables are open. -/
structure TreeEdge (s : Solver V) (p : Problem V) (labels : List (Option Nat)) (i : Nat) : Prop where
  tree : s.isTree[i]? = some true
  ends : ∃ (t : Term V) (v w : Nat), p.terms[i]? = some t ∧ t.vars = [v, w] ∧ labels[v]? = some none ∧ labels[w]? = some none

/-- The state during the first run, with the terms before `k` done; `D` is their value. -/
structure PassInv (e : Env V) (s : Solver V) (p : Problem V) (R : V → V → Prop) (labels : List (Option Nat)) (k : Nat) (q : Pass V) (D : List Nat → V) : Prop where
  len : q.energy.length = p.numLabels.length
  free : ∀ (v : Nat) (row : List V), labels[v]? = some none → q.energy[v]? = some row → p.numLabels[v]? = some row.length
  fixed : ∀ (v l : Nat) (row : List V), labels[v]? = some (some l) → q.energy[v]? = some row → (∃ y, row = [y]) ∨ ∃ m, 0 < m ∧ row = List.replicate m e.o.neutral
  queue : ∀ i ∈ q.queue, i < k ∧ TreeEdge s p labels i
  nodup : q.queue.Nodup
  degLen : q.degree.length = p.numLabels.length
  degree : ∀ v d : Nat, q.degree[v]? = some d → d = q.queue.countP (mentions p.terms v)
  value : ∀ z, Fits p labels z → R (e.o.op (rowsValue e.o z q.energy 0) (total e.o (q.queue.map (termVal e.o p z)))) (D z)

variable {e : Env V} {s : Solver V} {p : Problem V} {R : V → V → Prop} {labels : List (Option Nat)} {k : Nat} {q : Pass V} {D : List Nat → V}

theorem Fits.get {z : List Nat} (h : Fits p labels z) {v l : Nat} (hv : labels[v]? = some (some l)) : z.getD v 0 = l := by
  simp [List.getD_eq_getElem?_getD, h.fixed v l hv]

theorem Fits.lt {z : List Nat} (h : Fits p labels z) {v n : Nat} (hn : p.numLabels[v]? = some n) : z.getD v 0 < n := enc_label_lt h.labeling hn

/-- Adding a value to one row. -/
theorem PassInv.update (hr : Rel e.o R) (ho : e.o.IsCommMonoid) (h : PassInv e s p R labels k q D) {v : Nat} {row row' : List V} (h1 : q.energy[v]? = some row)
    (hfree : labels[v]? = some none → row'.length = row.length)
    (hfix : ∀ l, labels[v]? = some (some l) → (∃ y, row' = [y]) ∨ ∃ m, 0 < m ∧ row' = List.replicate m e.o.neutral)
    {D' : List Nat → V} (x : List Nat → V) (hx : ∀ z, Fits p labels z → pick e.o.neutral row' (z.getD v 0) = e.o.op (pick e.o.neutral row (z.getD v 0)) (x z))
    (hD : ∀ z, Fits p labels z → R (e.o.op (D z) (x z)) (D' z)) :
    PassInv e s p R labels (k + 1) { q with energy := q.energy.set v row' } D' := by
  have hlt : v < q.energy.length := (List.getElem?_eq_some_iff.mp h1).1
  refine ⟨by simpa using h.len, ?_, ?_, fun i hi => ⟨Nat.lt_succ_of_lt (h.queue i hi).1, (h.queue i hi).2⟩, h.nodup, h.degLen, h.degree, ?_⟩
  · intro w r hw hr'
    by_cases hwv : w = v
    · subst hwv
      simp only [List.getElem?_set_self hlt, Option.some.injEq] at hr'
      subst hr'
      rw [hfree hw]
      exact h.free w row hw h1
    · rw [List.getElem?_set_ne (fun h => hwv h.symm)] at hr'
      exact h.free w r hw hr'
  · intro w l r hw hr'
    by_cases hwv : w = v
    · subst hwv
      simp only [List.getElem?_set_self hlt, Option.some.injEq] at hr'
      subst hr'
      exact hfix l hw
    · rw [List.getElem?_set_ne (fun h => hwv h.symm)] at hr'
      exact h.fixed w l r hw hr'
  · intro z hz
    have := rowsValue_set ho z (x z) q.energy 0 v row row' h1 (by rw [Nat.zero_add]; exact hx z hz)
    simp only
    rw [this, ho.assoc, ho.comm (x z), ← ho.assoc]
    exact hr.trans _ _ _ (hr.mono _ _ _ (h.value z hz)) (hD z hz)

theorem PassInv.addFixed (hr : Rel e.o R) (ho : e.o.IsCommMonoid) (h : PassInv e s p R labels k q D) {v l : Nat} (hv : labels[v]? = some (some l))
    (hlt : v < p.numLabels.length) (x : V) {D' : List Nat → V} (hD : ∀ z, Fits p labels z → D' z = e.o.op (D z) x) :
    ∃ en, addFixed e.o q.energy v x = some en ∧ PassInv e s p R labels (k + 1) { q with energy := en } D' := by
  have h1 : q.energy[v]? = some (q.energy[v]'(by rw [h.len]; exact hlt)) := List.getElem?_eq_getElem _
  generalize q.energy[v]'(by rw [h.len]; exact hlt) = row at h1
  have hpick : ∃ y ys, row = y :: ys ∧ ∀ j, pick e.o.neutral row j = y := by
    rcases h.fixed v l row hv h1 with ⟨y, rfl⟩ | ⟨m, hm, rfl⟩
    · exact ⟨y, [], rfl, pick_single _ _⟩
    · cases m with
      | zero => omega
      | succ m => exact ⟨e.o.neutral, List.replicate m e.o.neutral, List.replicate_succ, pick_replicate _ _⟩
  obtain ⟨y, ys, hrow, hp⟩ := hpick
  refine ⟨q.energy.set v [e.o.op y x], ?_, ?_⟩
  · unfold AStar.addFixed
    rw [h1, hrow]
  · refine h.update hr ho h1 (fun hn => by rw [hv] at hn; cases hn) (fun _ _ => Or.inl ⟨_, rfl⟩) (fun _ => x) (fun z _ => by rw [pick_single, hp]) (fun z hz => ?_)
    rw [hD z hz]
    exact hr.refl _

theorem PassInv.addEach (hr : Rel e.o R) (ho : e.o.IsCommMonoid) (hl : s.gm.numLabels = p.numLabels) (h : PassInv e s p R labels k q D) {v n : Nat}
    (hv : labels[v]? = some none) (hn : p.numLabels[v]? = some n) {f : Nat → Option V} {g : Nat → V} (hf : ∀ j < n, f j = some (g j)) {D' : List Nat → V}
    (hD : ∀ z, Fits p labels z → R (e.o.op (D z) (g (z.getD v 0))) (D' z)) :
    ∃ en, addEach e.o s.gm q.energy v f = some en ∧ PassInv e s p R labels (k + 1) { q with energy := en } D' := by
  have hlt : v < p.numLabels.length := (List.getElem?_eq_some_iff.mp hn).1
  have h1 : q.energy[v]? = some (q.energy[v]'(by rw [h.len]; exact hlt)) := List.getElem?_eq_getElem _
  generalize q.energy[v]'(by rw [h.len]; exact hlt) = row at h1
  have hlen : row.length = n := by
    have := h.free v row hv h1
    rw [hn] at this
    exact (Option.some.inj this).symm
  obtain ⟨row', a1, a2, a3⟩ := addEach_spec e.o (gm := s.gm) h1 (by rw [hl]; exact hn) hlen hf
  refine ⟨_, a1, ?_⟩
  exact h.update hr ho h1 (fun _ => by omega) (fun l hl' => by rw [hv] at hl'; cases hl') (fun z => g (z.getD v 0)) (fun z hz => a3 _ (hz.lt hn)) hD

theorem countP_cons_mentions (v i : Nat) (l : List Nat) : (i :: l).countP (mentions p.terms v) = l.countP (mentions p.terms v) + if mentions p.terms v i = true then 1 else 0 := by
  rw [List.countP_cons]

theorem firstFactor_spec (hc : HCtx e s p) (hr : Rel e.o R) (hR : TwoOpen labels → ∀ a b, e.bop b a = false → R a b) (hlen : labels.length = p.numLabels.length)
    (hfit : ∃ z, Fits p labels z) {f : FactorRec} {t : Term V} (hm : FactorMatches s.gm f t) (ht : p.terms[k]? = some t) (h : PassInv e s p R labels k q D) :
    ∃ q', firstFactor e.o s labels k f q = some q' ∧
      PassInv e s p R labels (k + 1) q' (fun z => if t.vars = [] then D z else e.o.op (D z) (t.value z)) := by
  obtain ⟨z0, hz0⟩ := hfit
  have hsize := hm.visSize
  have hrange : ∀ v ∈ t.vars, v < p.numLabels.length := by rw [← hc.stores.labels]; exact hm.range
  have hle := hc.pairwise t (List.mem_of_getElem? ht)
  have hget : ∀ v : Nat, v < p.numLabels.length → p.numLabels[v]? = some (p.numLabels.getD v 0) := fun v hv => by
    simp [List.getD_eq_getElem?_getD, List.getElem?_eq_getElem hv]
  have hget' : ∀ v : Nat, v < p.numLabels.length → s.gm.numLabels[v]? = some (p.numLabels.getD v 0) := fun v hv => by rw [hc.stores.labels]; exact hget v hv
  have hlab : ∀ v : Nat, v < p.numLabels.length → labels[v]? = some none ∨ ∃ l, labels[v]? = some (some l) := fun v hv => by
    rw [List.getElem?_eq_getElem (by omega : v < labels.length)]
    cases labels[v] with
    | none => exact Or.inl rfl
    | some l => exact Or.inr ⟨l, rfl⟩
  unfold firstFactor
  match hvars : t.vars with
  | [] =>
    rw [hvars] at hsize
    rw [if_pos (by simpa using hsize)]
    refine ⟨q, rfl, h.len, h.free, h.fixed, fun i hi => ⟨Nat.lt_succ_of_lt (h.queue i hi).1, (h.queue i hi).2⟩, h.nodup, h.degLen, h.degree, ?_⟩
    intro z hz
    rw [if_pos rfl]
    exact h.value z hz
  | [v] =>
    rw [hvars] at hsize hrange
    have hsize : f.visSize = 1 := hsize
    have hvat : s.gm.visAt f 0 = some v := by rw [hm.visAt 0 (by omega), hvars]; rfl
    have hv := hrange v (by simp)
    rw [if_neg (by omega), if_pos hsize, hvat]
    simp only
    rcases hlab v hv with hl | ⟨l, hl⟩
    · rw [hl]
      simp only
      obtain ⟨en, e1, e2⟩ := h.addEach hr hc.comm hc.stores.labels hl (hget v hv) (f := fun j => s.gm.callFactor f [j]) (g := fun j => t.table [j])
        (fun j hj => callFactor_one hm hvars (hget' v hv) hj [])
        (D' := fun z => if [v] = [] then D z else e.o.op (D z) (t.value z))
        (fun z hz => by rw [if_neg (by simp)]; simp only [Term.value, hvars, restrict, List.map_cons, List.map_nil]; exact hr.refl _)
      exact ⟨_, by rw [e1]; rfl, e2⟩
    · rw [hl]
      simp only
      have hlt : l < p.numLabels.getD v 0 := by rw [← hz0.get hl]; exact hz0.lt (hget v hv)
      rw [callFactor_one hm hvars (hget' v hv) hlt []]
      simp only
      obtain ⟨en, e1, e2⟩ := h.addFixed hr hc.comm hl hv (t.table [l]) (D' := fun z => if [v] = [] then D z else e.o.op (D z) (t.value z))
        (fun z hz => by rw [if_neg (by simp)]; simp only [Term.value, hvars, restrict, List.map_cons, List.map_nil]; rw [hz.get hl])
      exact ⟨_, by rw [e1]; rfl, e2⟩
  | [v, w] =>
    rw [hvars] at hsize hrange
    have hsize : f.visSize = 2 := hsize
    have hvat : s.gm.visAt f 0 = some v := by rw [hm.visAt 0 (by omega), hvars]; rfl
    have hwat : s.gm.visAt f 1 = some w := by rw [hm.visAt 1 (by omega), hvars]; rfl
    have hv := hrange v (by simp)
    have hw := hrange w (by simp)
    have hvw : v ≠ w := by
      have := hm.sorted
      rw [hvars] at this
      simp at this
      omega
    have hcall : ∀ j k', j < p.numLabels.getD v 0 → k' < p.numLabels.getD w 0 → s.gm.callFactor f [j, k'] = some (t.table [j, k']) :=
      fun j k' hj hk => callFactor_two hm hvars (hget' v hv) (hget' w hw) hj hk []
    have hval : ∀ z, t.value z = t.table [z.getD v 0, z.getD w 0] := fun z => by simp [Term.value, hvars, restrict]
    rw [if_neg (by omega), if_neg (by omega), if_pos hsize, hvat, hwat]
    simp only
    rcases hlab v hv with hl1 | ⟨l1, hl1⟩
    · rcases hlab w hw with hl2 | ⟨l2, hl2⟩
      · rw [hl1, hl2]
        simp only
        have hk : k < s.isTree.length := by rw [hc.trees]; exact (List.getElem?_eq_some_iff.mp ht).1
        rw [List.getElem?_eq_getElem hk]
        cases htree : s.isTree[k] with
        | true =>
          simp only
          have hdv : v < q.degree.length := by rw [h.degLen]; exact hv
          have hdw : w < q.degree.length := by rw [h.degLen]; exact hw
          have hnk : k ∉ q.queue := fun hm' => by have := (h.queue k hm').1; omega
          refine ⟨{ q with degree := (q.degree.set v (q.degree[v] + 1)).set w (q.degree[w] + 1), queue := k :: q.queue }, ?_, h.len, h.free, h.fixed, ?_, ?_, ?_, ?_, ?_⟩
          · unfold incr
            rw [List.getElem?_eq_getElem hdv]
            simp only
            rw [List.getElem?_set_ne hvw, List.getElem?_eq_getElem hdw]
            rfl
          · intro i hi
            rcases List.mem_cons.mp hi with rfl | hi
            · exact ⟨Nat.lt_succ_self _, by rw [List.getElem?_eq_getElem hk, htree], t, v, w, ht, hvars, hl1, hl2⟩
            · exact ⟨Nat.lt_succ_of_lt (h.queue i hi).1, (h.queue i hi).2⟩
          · exact List.nodup_cons.mpr ⟨hnk, h.nodup⟩
          · simpa using h.degLen
          · intro u d hd
            simp only at hd ⊢
            rw [countP_cons_mentions]
            have hmen : mentions p.terms u k = decide (u ∈ t.vars) := by simp [mentions, ht]
            rw [hmen, hvars]
            by_cases hu : u = w
            · subst hu
              rw [List.getElem?_set_self (by simpa using hdw)] at hd
              rw [if_pos (by simp)]
              have := h.degree u _ (List.getElem?_eq_getElem hdw)
              cases hd
              omega
            · rw [List.getElem?_set_ne (fun h => hu h.symm)] at hd
              by_cases hu' : u = v
              · subst hu'
                rw [List.getElem?_set_self hdv] at hd
                rw [if_pos (by simp)]
                have := h.degree u _ (List.getElem?_eq_getElem hdv)
                cases hd
                omega
              · rw [List.getElem?_set_ne (fun h => hu' h.symm)] at hd
                rw [if_neg (by simp [hu, hu'])]
                rw [h.degree u d hd, Nat.add_zero]
          · intro z hz
            rw [if_neg (by simp)]
            simp only [List.map_cons]
            rw [total_cons hc.comm]
            have htv : termVal e.o p z k = t.value z := by simp [termVal, ht]
            rw [htv, hc.comm.comm (t.value z), ← hc.comm.assoc]
            exact hr.mono _ _ _ (h.value z hz)
        | false =>
          simp only
          obtain ⟨a, g, a1, a2⟩ := hc.optimized k t v w _ _ ht hvars (hget v hv) (hget w hw)
          obtain ⟨en, e1, e2⟩ := h.addEach hr hc.comm hc.stores.labels hl1 (hget v hv) (f := fun j => a.get [j]) (g := g) (fun j hj => (a2 j hj).1)
            (D' := fun z => if [v, w] = [] then D z else e.o.op (D z) (t.value z))
            (fun z hz => by
              rw [if_neg (by simp), hval]
              exact hr.mono_left hc.comm (hR ⟨v, w, hvw, hl1, hl2⟩ _ _ ((a2 _ (hz.lt (hget v hv))).2 _ (hz.lt (hget w hw)))))
          refine ⟨_, ?_, e2⟩
          unfold addOptimized
          rw [a1]
          simp only
          rw [e1]
          rfl
      · rw [hl1, hl2]
        simp only
        have hlt : l2 < p.numLabels.getD w 0 := by rw [← hz0.get hl2]; exact hz0.lt (hget w hw)
        obtain ⟨en, e1, e2⟩ := h.addEach hr hc.comm hc.stores.labels hl1 (hget v hv) (f := fun j => s.gm.callFactor f [j, l2]) (g := fun j => t.table [j, l2])
          (fun j hj => hcall j l2 hj hlt)
          (D' := fun z => if [v, w] = [] then D z else e.o.op (D z) (t.value z))
          (fun z hz => by rw [if_neg (by simp), hval, hz.get hl2]; exact hr.refl _)
        exact ⟨_, by rw [e1]; rfl, e2⟩
    · have hlt1 : l1 < p.numLabels.getD v 0 := by rw [← hz0.get hl1]; exact hz0.lt (hget v hv)
      rcases hlab w hw with hl2 | ⟨l2, hl2⟩
      · rw [hl1, hl2]
        simp only
        obtain ⟨en, e1, e2⟩ := h.addEach hr hc.comm hc.stores.labels hl2 (hget w hw) (f := fun j => s.gm.callFactor f [l1, j]) (g := fun j => t.table [l1, j])
          (fun j hj => hcall l1 j hlt1 hj)
          (D' := fun z => if [v, w] = [] then D z else e.o.op (D z) (t.value z))
          (fun z hz => by rw [if_neg (by simp), hval, hz.get hl1]; exact hr.refl _)
        exact ⟨_, by rw [e1]; rfl, e2⟩
      · rw [hl1, hl2]
        simp only
        have hlt2 : l2 < p.numLabels.getD w 0 := by rw [← hz0.get hl2]; exact hz0.lt (hget w hw)
        rw [hcall l1 l2 hlt1 hlt2]
        simp only
        obtain ⟨en, e1, e2⟩ := h.addFixed hr hc.comm hl1 hv (t.table [l1, l2]) (D' := fun z => if [v, w] = [] then D z else e.o.op (D z) (t.value z))
          (fun z hz => by rw [if_neg (by simp), hval, hz.get hl1, hz.get hl2])
        exact ⟨_, by rw [e1]; rfl, e2⟩
  | a :: b :: c :: l => rw [hvars] at hle; simp at hle

theorem firstRun_spec (hc : HCtx e s p) (hr : Rel e.o R) (hR : TwoOpen labels → ∀ a b, e.bop b a = false → R a b) (hlen : labels.length = p.numLabels.length)
    (hfit : ∃ z, Fits p labels z) : ∀ {fs : List FactorRec} {ts : List (Term V)}, List.Forall₂ (FactorMatches s.gm) fs ts → ∀ (k : Nat) (q : Pass V) (D : List Nat → V),
      (∀ (j : Nat) (t : Term V), ts[j]? = some t → p.terms[k + j]? = some t) → PassInv e s p R labels k q D →
      ∃ q', firstRun e.o s labels fs k q = some q' ∧
        PassInv e s p R labels (k + ts.length) q' (fun z => ((ts.filter (fun t => decide (t.vars ≠ []))).map (fun t => t.value z)).foldl e.o.op (D z)) := by
  intro fs ts hm
  induction hm with
  | nil => intro k q D _ h; exact ⟨q, rfl, by simpa using h⟩
  | @cons f t fs ts hft _ ih =>
    intro k q D hts h
    obtain ⟨q1, a1, a2⟩ := firstFactor_spec hc hr hR hlen hfit hft (by simpa using hts 0 t rfl) h
    obtain ⟨q2, b1, b2⟩ := ih (k + 1) q1 _ (fun j t' hj => by rw [show k + 1 + j = k + (j + 1) by omega]; exact hts (j + 1) t' (by simpa using hj)) a2
    refine ⟨q2, ?_, ?_⟩
    · unfold firstRun
      rw [a1]
      exact b1
    · rw [List.length_cons, show k + (ts.length + 1) = k + 1 + ts.length by omega]
      convert b2 using 2
      rename_i z
      by_cases hv : t.vars = []
      · simp [hv]
      · simp [hv]

end AStar
end OpenGM
