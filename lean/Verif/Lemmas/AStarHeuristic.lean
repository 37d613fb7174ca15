import Verif.Lemmas.AStarReduce
/-
Lemmas for the fast heuristic of A*: it never overestimates, and it is exact if one variable is open.
-/
namespace OpenGM
namespace AStar
open Spec
variable {V : Type} {e : Env V} {s : Solver V} {p : Problem V} {R : V → V → Prop} {labels : List (Option Nat)}

theorem rowsValue_append {o : Operation V} (ho : o.IsCommMonoid) (z : List Nat) : ∀ (A B : List (List V)) (i : Nat),
    rowsValue o z (A ++ B) i = o.op (rowsValue o z A i) (rowsValue o z B (i + A.length))
  | [], B, i => by simp [rowsValue, ho.neutral_left]
  | a :: A, B, i => by
    rw [List.cons_append, rowsValue, rowsValue, rowsValue_append ho z A B (i + 1), ho.assoc, List.length_cons, show i + 1 + A.length = i + (A.length + 1) by omega]

theorem combine_append (next : Nat) : ∀ (A B : List (List V)) (i : Nat) (r : V), combine e next (A ++ B) i r = combine e next B (i + A.length) (combine e next A i r)
  | [], _, _, _ => rfl
  | a :: A, B, i, r => by
    rw [List.cons_append, combine, combine, combine_append next A B, List.length_cons, show i + 1 + A.length = i + (A.length + 1) by omega]

theorem combine_spec (ho : e.o.IsCommMonoid) (hr : Rel e.o R) (next : Nat) (z : List Nat) : ∀ (A : List (List V)) (i : Nat) (r : V), (next < i ∨ i + A.length ≤ next) →
    (∀ (k : Nat) (row : List V), A[k]? = some row → R (row.foldl e.acc e.accNeutral) (pick e.o.neutral row (z.getD (i + k) 0))) →
    R (combine e next A i r) (e.o.op r (rowsValue e.o z A i))
  | [], i, r, _, _ => by
    rw [combine, rowsValue, ho.comm, ho.neutral_left]
    exact hr.refl _
  | a :: A, i, r, hn, h => by
    rw [combine, rowsValue, if_neg (by rw [List.length_cons] at hn; omega)]
    refine hr.trans _ _ _ (combine_spec ho hr next z A (i + 1) _ (by rw [List.length_cons] at hn; omega) (fun k row hk => ?_)) ?_
    · rw [show i + 1 + k = i + (k + 1) by omega]
      exact h (k + 1) row (by simpa using hk)
    · rw [← ho.assoc]
      exact hr.mono _ _ _ (hr.mono_left ho (h 0 a rfl))

theorem fixLabels_spec : ∀ (order conf : List Nat) (ls : List (Option Nat)), order.Nodup → (∀ v ∈ order, v < ls.length) → conf.length ≤ order.length →
    ∃ ls', fixLabels order conf ls = some ls' ∧ ls'.length = ls.length ∧ (∀ i v l : Nat, order[i]? = some v → conf[i]? = some l → ls'[v]? = some (some l)) ∧
      ∀ v : Nat, (∀ i < conf.length, order[i]? ≠ some v) → ls'[v]? = ls[v]?
  | order, [], ls, _, _, _ => ⟨ls, by cases order <;> rfl, rfl, by simp, fun _ _ => rfl⟩
  | [], _ :: _, _, _, _, h => by simp at h
  | v :: order, l :: conf, ls, hnd, hlt, hlen => by
    have hv : v < ls.length := hlt v (by simp)
    obtain ⟨hnv, hnd'⟩ := List.nodup_cons.mp hnd
    obtain ⟨ls', h1, h2, h3, h4⟩ := fixLabels_spec order conf (ls.set v (some l)) hnd' (fun w hw => by simpa using hlt w (by simp [hw])) (by simpa using hlen)
    refine ⟨ls', ?_, by simpa using h2, ?_, ?_⟩
    · unfold fixLabels setAt
      rw [if_pos hv]
      exact h1
    · intro i w l' hi hl
      cases i with
      | zero =>
        simp only [List.getElem?_cons_zero, Option.some.injEq] at hi hl
        subst hi; subst hl
        rw [h4 v (fun i _ hi => hnv (List.mem_of_getElem? hi)), List.getElem?_set_self hv]
      | succ i => exact h3 i w l' (by simpa using hi) (by simpa using hl)
    · intro w hw
      rw [h4 w (fun i hi => by simpa using hw (i + 1) (by simpa using hi)), List.getElem?_set_ne]
      intro h
      exact hw 0 (by simp) (by simp [h])

theorem foldl_acc_single (hw : ∀ v, e.bop e.accNeutral v = false) (y : V) : [y].foldl e.acc e.accNeutral = y := by
  simp [Env.acc, hw]

theorem foldl_acc_neutral (ho : Order e.bop) (hw : ∀ v, e.bop e.accNeutral v = false) (x : V) {m : Nat} (hm : 0 < m) :
    (List.replicate m x).foldl e.acc e.accNeutral = x := by
  obtain ⟨m, rfl⟩ : ∃ k, m = k + 1 := ⟨m - 1, by omega⟩
  rw [List.replicate_succ, List.foldl_cons, show e.acc e.accNeutral x = x by simp [Env.acc, hw], foldl_acc_replicate ho]

/-- The values that fastHeuristic computes. -/
theorem fast_core (hc : HCtx e s p) (hr : Rel e.o R) (hR : TwoOpen labels → ∀ a b, e.bop b a = false → R a b) (hw : ∀ v, e.bop e.accNeutral v = false) {l : List Nat}
    (hl : p.Peelable l) (hsub : ∀ i, TreeEdge s p labels i → i ∈ l) {next n : Nat} (hnext : labels[next]? = some none) (hn : p.numLabels[next]? = some n)
    (hlen : labels.length = p.numLabels.length) (hfit : ∃ z, Fits p labels z) {conf : List Nat} (ho : s.para.nodeOrder[conf.length]? = some next)
    (hfix : fixLabels s.para.nodeOrder conf (List.replicate s.gm.numLabels.length none) = some labels) :
    ∃ bs, fastHeuristic e s conf = some bs ∧ bs.length = n ∧ ∀ (j : Nat) (b : V) (z : List Nat), bs[j]? = some b → Fits p labels z → z.getD next 0 = j →
      R b (p.withoutConstants.energy e.o z) := by
  have hlt : next < p.numLabels.length := (List.getElem?_eq_some_iff.mp hn).1
  have hinit : PassInv e s p R labels 0 ⟨s.gm.numLabels.map (fun n => List.replicate n e.o.neutral), List.replicate s.gm.numLabels.length 0, []⟩ (fun _ => e.o.neutral) := by
    refine ⟨by simp [hc.stores.labels], ?_, ?_, by simp, by simp, by simp [hc.stores.labels], ?_, ?_⟩
    · intro v row _ hrow
      rw [hc.stores.labels] at hrow
      simp only [List.getElem?_map, Option.map_eq_some_iff] at hrow
      obtain ⟨k, hk, rfl⟩ := hrow
      rw [hk, List.length_replicate]
    · intro v l' row _ hrow
      rw [hc.stores.labels] at hrow
      simp only [List.getElem?_map, Option.map_eq_some_iff] at hrow
      obtain ⟨k, hk, rfl⟩ := hrow
      exact Or.inr ⟨k, hc.positive k (List.mem_of_getElem? hk), rfl⟩
    · intro v d hd
      simp only [List.getElem?_replicate] at hd
      split at hd
      · cases hd; rfl
      · cases hd
    · intro z _
      simp only [List.map_nil]
      rw [rowsValue_neutral hc.comm, show total e.o ([] : List V) = e.o.neutral from rfl, hc.comm.neutral_left]
      exact hr.refl _
  obtain ⟨q, q1, q2⟩ := firstRun_spec hc hr hR hlen hfit hc.stores.factors 0 _ _ (fun j t ht => by simpa using ht) hinit
  have hdlt : next < q.degree.length := by rw [q2.degLen]; exact hlt
  have hred : RedInv e s p R labels next { q with degree := q.degree.set next (q.degree[next] + s.gm.numLabels.length) } (fun z => p.withoutConstants.energy e.o z) := by
    refine ⟨q2.len, fun v row hv hrow => Or.inl (q2.free v row hv hrow), q2.fixed, fun i hi => (q2.queue i hi).2, q2.nodup, by simpa using q2.degLen, ?_, ?_⟩
    · intro v d hd
      simp only at hd ⊢
      by_cases hv : v = next
      · subst hv
        rw [List.getElem?_set_self hdlt] at hd
        cases hd
        rw [← q2.degree v _ (List.getElem?_eq_getElem hdlt), if_pos rfl, hc.stores.labels]
      · rw [List.getElem?_set_ne (fun h => hv h.symm)] at hd
        rw [if_neg hv, Nat.add_zero]
        exact q2.degree v d hd
    · intro z hz
      exact q2.value z hz
  obtain ⟨q', r1, r2, r3⟩ := reduce_spec hc hr hR hl hsub hlt _ _ rfl hred _ (Nat.le_refl _)
  have hrowlt : next < q'.energy.length := by rw [r3.len]; exact hlt
  have hrow : q'.energy[next]? = some q'.energy[next] := List.getElem?_eq_getElem hrowlt
  have hrowlen : q'.energy[next].length = n := by
    rcases r3.free next _ hnext hrow with hx | ⟨hx, _⟩
    · rw [hn] at hx; exact (Option.some.inj hx).symm
    · exact absurd rfl hx
  refine ⟨q'.energy[next].map (fun x => e.o.op x (combine e next q'.energy 0 e.o.neutral)), ?_, by simpa using hrowlen, ?_⟩
  · unfold fastHeuristic
    rw [ho, hfix]
    simp only
    rw [q1]
    simp only
    rw [List.getElem?_eq_getElem hdlt]
    simp only
    simp only at r1
    rw [r1]
    simp only
    rw [hrow]
    rfl
  · intro j b z hb hz hzn
    have hjn : j < n := by
      have := (List.getElem?_eq_some_iff.mp hb).1
      rw [List.length_map, hrowlen] at this
      exact this
    have hjl : j < q'.energy[next].length := by rw [hrowlen]; exact hjn
    rw [List.getElem?_map, List.getElem?_eq_getElem hjl] at hb
    simp only [Option.map_some, Option.some.injEq] at hb
    subst hb
    have hv := r3.value z hz
    rw [r2, List.map_nil, show total e.o ([] : List V) = e.o.neutral from rfl, hc.comm.comm _ e.o.neutral, hc.comm.neutral_left] at hv
    refine hr.trans _ _ _ ?_ hv
    -- the rows of the other variables
    have hother : ∀ (v : Nat) (row : List V), v ≠ next → q'.energy[v]? = some row → R (row.foldl e.acc e.accNeutral) (pick e.o.neutral row (z.getD v 0)) := by
      intro v row hvn hrow'
      have hvlt : v < labels.length := by
        rw [hlen, ← r3.len]
        exact (List.getElem?_eq_some_iff.mp hrow').1
      cases hlv : labels[v] with
      | some l' =>
        rcases r3.fixed v l' row (by rw [List.getElem?_eq_getElem hvlt, hlv]) hrow' with ⟨y, rfl⟩ | ⟨m, hm, rfl⟩
        · rw [foldl_acc_single hw, pick_single]
          exact hr.refl _
        · rw [foldl_acc_neutral hc.order hw _ hm, pick_replicate]
          exact hr.refl _
      | none =>
        have hvopen : labels[v]? = some none := by rw [List.getElem?_eq_getElem hvlt, hlv]
        apply hR ⟨v, next, hvn, hvopen, hnext⟩
        have hmem : pick e.o.neutral row (z.getD v 0) ∈ row := by
          rcases r3.free v row hvopen hrow' with hx | ⟨_, hx, _⟩
          · rw [pick_lt (hz.lt hx)]
            exact List.getElem_mem _
          · obtain ⟨y, rfl⟩ := List.length_eq_one_iff.mp hx
            rw [pick_single]
            simp
        exact (foldl_acc hc.order row e.accNeutral).2 _ hmem
    -- split at `next`
    obtain ⟨A, B, hAB, hA⟩ : ∃ A B, q'.energy = A ++ q'.energy[next] :: B ∧ A.length = next :=
      ⟨q'.energy.take next, q'.energy.drop (next + 1), by rw [← List.drop_eq_getElem_cons hrowlt, List.take_append_drop], by simp; omega⟩
    generalize hrw : q'.energy[next] = row at *
    have hcomb : combine e next q'.energy 0 e.o.neutral = combine e next B (next + 1) (combine e next A 0 e.o.neutral) := by
      rw [hAB, combine_append, hA, Nat.zero_add, combine, if_pos rfl]
    have hrows : rowsValue e.o z q'.energy 0 = e.o.op (rowsValue e.o z A 0) (e.o.op row[j] (rowsValue e.o z B (next + 1))) := by
      rw [hAB, rowsValue_append hc.comm, hA, Nat.zero_add, rowsValue, hzn, pick_lt hjl]
    rw [hcomb, hrows]
    have h1 := combine_spec hc.comm hr next z A 0 e.o.neutral (Or.inr (by omega)) (fun k row' hk => by
      have hkA : k < A.length := (List.getElem?_eq_some_iff.mp hk).1
      rw [Nat.zero_add]
      exact hother k row' (by omega) (by rw [hAB, List.getElem?_append_left hkA]; exact hk))
    have h2 := combine_spec hc.comm hr next z B (next + 1) (combine e next A 0 e.o.neutral) (Or.inl (by omega)) (fun k row' hk => by
      refine hother _ row' (by omega) ?_
      rw [hAB, List.getElem?_append_right (by omega), hA, show next + 1 + k - next = k + 1 by omega, List.getElem?_cons_succ]
      exact hk)
    rw [hc.comm.neutral_left] at h1
    have h3 := hr.trans _ _ _ h2 (hr.mono _ _ (rowsValue e.o z B (next + 1)) h1)
    have h4 := hr.mono_left hc.comm (c := row[j]) h3
    convert h4 using 1
    rw [← hc.comm.assoc, hc.comm.comm (rowsValue e.o z A 0), hc.comm.assoc]

/-- With a tree as set of factors the fast heuristic never overestimates and is exact on complete configurations. -/
theorem fast_admissible (hc : HCtx e s p) (hrefl : Reflects e.o e.bop) (hw : ∀ v, e.bop e.accNeutral v = false)
    (hperm : s.para.nodeOrder.Perm (List.range p.numLabels.length)) (hh : s.para.heuristic ≠ 2) {l : List Nat}
    (hl : p.Peelable l) (hsub : ∀ (i : Nat) (t : Term V), s.isTree[i]? = some true → p.terms[i]? = some t → t.vars.length = 2 → i ∈ l) :
    Admissible e s p (p.withoutConstants.energy e.o) := by
  intro z conf hz hpre hconf
  have hnd : s.para.nodeOrder.Nodup := hperm.nodup_iff.mpr List.nodup_range
  have holen : s.para.nodeOrder.length = p.numLabels.length := by simpa using hperm.length_eq
  obtain ⟨labels, l1, l2, l3, l4⟩ := fixLabels_spec s.para.nodeOrder conf (List.replicate s.gm.numLabels.length none) hnd
    (fun v hv => by rw [List.length_replicate, hc.stores.labels]; simpa using hperm.mem_iff.mp hv) (by omega)
  have hlen : labels.length = p.numLabels.length := by rw [l2, List.length_replicate, hc.stores.labels]
  have hnl : conf.length < s.para.nodeOrder.length := by omega
  have hopen : ∀ k v : Nat, conf.length ≤ k → s.para.nodeOrder[k]? = some v → labels[v]? = some none := by
    intro k v hk hv
    rw [l4 v (fun i hi h => by
      have h1 := (List.getElem?_eq_some_iff.mp hv)
      have h2 := (List.getElem?_eq_some_iff.mp h)
      have := (List.Nodup.getElem_inj_iff hnd (hi := h2.1) (hj := h1.1)).mp (by rw [h1.2, h2.2])
      omega)]
    rw [List.getElem?_replicate, if_pos]
    rw [hc.stores.labels]
    simpa using hperm.mem_iff.mp (List.mem_of_getElem? hv)
  have hfits : ∀ z', p.Labeling z' → conf <+: enc s.para.nodeOrder z' → Fits p labels z' := by
    intro z' hz' hpre'
    refine ⟨hz', hlen, ?_⟩
    intro v l' hv
    have hvlt : v < p.numLabels.length := by
      rw [← hlen]
      exact (List.getElem?_eq_some_iff.mp hv).1
    obtain ⟨i, hi, hiv⟩ := List.getElem_of_mem (hperm.mem_iff.mpr (List.mem_range.mpr hvlt))
    have hiv' : s.para.nodeOrder[i]? = some v := by rw [List.getElem?_eq_getElem hi, hiv]
    by_cases hic : i < conf.length
    · have := l3 i v conf[i] hiv' (List.getElem?_eq_getElem hic)
      rw [this] at hv
      have h2 := (List.prefix_iff_getElem?.mp hpre') i hic
      rw [enc_get hiv'] at h2
      have hvz : v < z'.length := by rw [hz'.1]; exact hvlt
      rw [List.getD_eq_getElem?_getD, List.getElem?_eq_getElem hvz] at h2
      simp only [Option.getD_some, Option.some.injEq] at h2 hv
      rw [List.getElem?_eq_getElem hvz, h2, hv]
    · rw [hopen i v (by omega) hiv'] at hv
      cases hv
  have hnext : s.para.nodeOrder[conf.length]? = some (s.para.nodeOrder[conf.length]) := List.getElem?_eq_getElem hnl
  generalize s.para.nodeOrder[conf.length] = next at hnext
  have hnextlt : next < p.numLabels.length := by simpa using hperm.mem_iff.mp (List.mem_of_getElem? hnext)
  have hn : p.numLabels[next]? = some p.numLabels[next] := List.getElem?_eq_getElem hnextlt
  have hsub' : ∀ i, TreeEdge s p labels i → i ∈ l := by
    intro i hi
    obtain ⟨t, v, w, t1, t2, _⟩ := hi.ends
    exact hsub i t hi.tree t1 (by rw [t2]; rfl)
  have hlast : ∀ (j : Nat) (z' : List Nat), (conf ++ [j]) <+: enc s.para.nodeOrder z' → conf <+: enc s.para.nodeOrder z' ∧ z'.getD next 0 = j := by
    intro j z' hx
    refine ⟨(List.prefix_append _ _).trans hx, ?_⟩
    have := (List.prefix_iff_getElem?.mp hx) conf.length (by simp)
    rw [enc_get hnext] at this
    simpa using this
  by_cases hx : conf.length + 1 = p.numLabels.length
  · obtain ⟨bs, b1, b2, b3⟩ := fast_core (R := (· = ·)) hc (rel_eq e.o) (labels := labels)
      (fun ⟨v, w, hvw, hv, hw'⟩ => by
        exfalso
        have key : ∀ u : Nat, labels[u]? = some none → u = next := by
          intro u hu
          have hult : u < p.numLabels.length := by
            rw [← hlen]
            exact (List.getElem?_eq_some_iff.mp hu).1
          obtain ⟨i, hi, hiv⟩ := List.getElem_of_mem (hperm.mem_iff.mpr (List.mem_range.mpr hult))
          have hiv' : s.para.nodeOrder[i]? = some u := by rw [List.getElem?_eq_getElem hi, hiv]
          by_cases hic : i < conf.length
          · rw [l3 i u conf[i] hiv' (List.getElem?_eq_getElem hic)] at hu
            cases hu
          · rw [show i = conf.length by omega, hnext] at hiv'
            exact (Option.some.inj hiv').symm
        exact hvw ((key v hv).trans (key w hw').symm))
      hw hl hsub' (hopen _ next (Nat.le_refl _) hnext) hn hlen ⟨z, hfits z hz hpre⟩ hnext l1
    refine ⟨bs, next, _, ?_, hnext, hn, b2, ?_⟩
    · unfold heuristic
      rw [if_neg hh, b1]
    · intro j b z' hb hz' hpre'
      obtain ⟨g1, g2⟩ := hlast j z' hpre'
      have := b3 j b z' hb (hfits z' hz' g1) g2
      exact ⟨by rw [this]; exact hc.order.strict.irrefl _, fun _ => this⟩
  · obtain ⟨bs, b1, b2, b3⟩ := fast_core (R := fun a b => e.bop b a = false) hc (rel_notWorse hc.comm hc.order hrefl) (labels := labels)
      (fun _ a b h => h) hw hl hsub' (hopen _ next (Nat.le_refl _) hnext) hn hlen ⟨z, hfits z hz hpre⟩ hnext l1
    refine ⟨bs, next, _, ?_, hnext, hn, b2, ?_⟩
    · unfold heuristic
      rw [if_neg hh, b1]
    · intro j b z' hb hz' hpre'
      obtain ⟨g1, g2⟩ := hlast j z' hpre'
      exact ⟨b3 j b z' hb (hfits z' hz' g1) g2, fun h => absurd h hx⟩

end AStar
end OpenGM
