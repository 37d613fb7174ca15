import Verif.Lemmas.BPRows
import Verif.Lemmas.BPInit
import Verif.Lemmas.DPInfer
/-
The messages of an acyclic model are exact, and so are the marginals.
-/
namespace OpenGM.MessagePassing
open Spec BP Lift
variable {V : Type} {r : Rules V} {P : V → Prop} {gm : GM V} {p : Problem V} {norm : Bool}

/-- The value of term `g` at a labeling. -/
noncomputable def phi (h : Laws r P) (p : Problem V) (g : Nat) (y : List Nat) : Lift h :=
  match p.terms[g]? with
  | some t => val h (t.value y)
  | none => 1

theorem phi_local (h : Laws r P) : Local p.numLabels p.scopes (phi h p) := by
  intro f S hS y _ y' _ ha
  unfold phi
  cases ht : p.terms[f]? with
  | none => rfl
  | some t =>
    simp only
    congr 1
    unfold Term.value restrict
    congr 1
    apply List.map_congr_left
    intro v hv
    exact ha v (hS v (by rw [scopeOf_term ht]; exact hv))

theorem GoodRow.congr {h : Laws r P} {nl : List Nat} {v : Nat} {ex ex' : List Nat → Lift h} {row : List V} (e : ∀ x ∈ Om nl, ex x = ex' x) (hg : GoodRow h norm nl v ex row) :
    GoodRow h norm nl v ex' row := by
  obtain ⟨h1, h2, c, d, pc, pd, u, nn, g⟩ := hg
  exact ⟨h1, h2, c, d, pc, pd, u, nn, fun x hx a ha => by rw [← e x hx]; exact g x hx a ha⟩

theorem adjOf_toFinset (hr : Represents gm p) (v : Nat) : (adjOf gm v).toFinset = factorsOf p.scopes v := by
  ext f
  rw [List.mem_toFinset, mem_factorsOf]
  exact (net_of_represents hr).mem v f

theorem term_facts (hr : Represents gm p) (hP : p.Values P) {f : Nat} {rec : FactorRec} (hf : gm.factors[f]? = some rec) :
    ∃ t fn, p.terms[f]? = some t ∧ FactorMatches gm rec t ∧ scopeOf p.scopes f = t.vars ∧ gm.getFunction ⟨rec.functionIndex, rec.functionType⟩ = some fn ∧
      fn.shape = restrict p.numLabels (scopeOf p.scopes f) ∧ (∀ c, InShape (restrict p.numLabels (scopeOf p.scopes f)) c → P (t.table c)) ∧
      (scopeOf p.scopes f ≠ [] → ∀ c, InShape (restrict p.numLabels (scopeOf p.scopes f)) c → gm.callFactor rec c = some (t.table c)) := by
  obtain ⟨t, ht, hm⟩ := factor_matches hr hf
  obtain ⟨fn, h1, h2, h3⟩ := hm.fn
  have hsc := scopeOf_term ht
  refine ⟨t, fn, ht, hm, hsc, h1, by rw [h2, hr.labels, hsc], ?_, ?_⟩
  · intro c hc
    rw [hsc] at hc
    exact hP t (List.mem_of_getElem? ht) c hc
  · intro hne c hc
    rw [hsc] at hc hne
    exact DP.callFactor_at hr.toStores hm hc hne

/-! ### Shapes only -/

theorem operate_len {o : Operation V} {n : Nat} {ι : Type} {row : ι → List V} {is : List ι} (hl : ∀ i ∈ is, (row i).length = n) :
    ∃ out, operate o n (is.map row) = some out ∧ out.length = n := by
  obtain ⟨out, e1, e2, _⟩ := mapM_range_some (f := fun k => opAt o k (is.map row) o.neutral) (n := n)
    (fun k hk => by obtain ⟨bs, _, hb⟩ := opAt_eq (o := o) (a := o.neutral) (is := is) (row := row) (n := k) (fun i hi => by rw [hl i hi]; exact hk); exact ⟨_, hb⟩)
  exact ⟨out, e1, e2⟩

theorem opMessages_len {o : Operation V} : ∀ {ms : List (List V)} {ls : List Nat} {a : V}, List.Forall₂ (fun m l => l < m.length) ms ls → ∃ b, opMessages o ms ls a = some b
  | [], _, a, _ => ⟨a, by simp [opMessages]⟩
  | m :: ms, _, a, .cons (b := l) h ht => by
    rw [opMessages, List.getElem?_eq_getElem h]
    exact opMessages_len ht

theorem forall₂_eraseIdx {α β : Type} {R : α → β → Prop} : ∀ {l : List α} {m : List β} {i : Nat}, (∀ j a b, j ≠ i → l[j]? = some a → m[j]? = some b → R a b) → l.length = m.length →
    List.Forall₂ R (l.eraseIdx i) (m.eraseIdx i)
  | [], [], _, _, _ => by simp
  | [], _ :: _, _, _, h => by simp at h
  | _ :: _, [], _, _, h => by simp at h
  | a :: l, b :: m, 0, h, hl => by
    simp only [List.eraseIdx_zero, List.tail_cons]
    rw [List.forall₂_iff_get]
    refine ⟨by simpa using hl, fun k h1 h2 => ?_⟩
    exact h (k + 1) _ _ (by omega) (by simp) (by simp)
  | a :: l, b :: m, i + 1, h, hl => by
    simp only [List.eraseIdx_cons_succ]
    refine List.Forall₂.cons (h 0 a b (by omega) rfl rfl) (forall₂_eraseIdx (fun j x y hj hx hy => h (j + 1) x y (by omega) (by simpa using hx) (by simpa using hy)) (by simpa using hl))

theorem inShape_get : ∀ {vs t : List Nat} {nl : List Nat}, InShape (restrict nl vs) t → t.length = vs.length ∧ ∀ j v l : Nat, vs[j]? = some v → t[j]? = some l → l < nl.getD v 0
  | [], [], _, _ => ⟨rfl, by simp⟩
  | [], _ :: _, _, h => by simp [restrict, InShape] at h
  | _ :: _, [], _, h => by simp [restrict, InShape] at h
  | v :: vs, l :: t, nl, h => by
    simp only [restrict, List.map_cons, InShape] at h
    obtain ⟨i1, i2⟩ := inShape_get (vs := vs) h.2
    refine ⟨by simpa using i1, ?_⟩
    intro j w k hw hk
    cases j with
    | zero => simp at hw hk; subst hw hk; exact h.1
    | succ j => exact i2 j w k (by simpa using hw) (by simpa using hk)

/-- Lengths are kept, whatever the values. -/
theorem closed_len (hr : Represents gm p) (norm : Bool) :
    Closed r gm norm (adjOf gm) (scopeOf p.scopes) (fun v _ row => row.length = gm.numLabels.getD v 0) (fun _ v row => row.length = gm.numLabels.getD v 0) := by
  have hN := net_of_represents hr
  refine ⟨fun _ _ _ h => h, fun _ _ _ h => h, ?_, fun _ _ _ => by simp, ?_⟩
  · intro v j f hj rows hrows
    rw [List.eraseIdx_map]
    refine operate_len (fun g hg => ?_)
    obtain ⟨hlt, e⟩ := List.getElem?_eq_some_iff.mp hj
    rw [← (hN.nodupV v).erase_getElem j hlt, e, (hN.nodupV v).mem_erase_iff] at hg
    exact hrows g hg.2 hg.1
  · intro f i v rec hi hf rows hrows
    obtain ⟨t, ht, hm⟩ := factor_matches hr hf
    obtain ⟨fn, h1, h2, h3⟩ := hm.fn
    have hsc := scopeOf_term ht
    have hvs : v ∈ t.vars := by rw [← hsc]; exact List.mem_of_getElem? hi
    have hne : t.vars ≠ [] := List.ne_nil_of_mem hvs
    have hval : ∀ c, ∃ b, InShape (restrict p.numLabels t.vars) c →
        opMessages r.o (((scopeOf p.scopes f).map rows).eraseIdx i) (c.eraseIdx i) (t.table c) = some b := by
      intro c
      by_cases hc : InShape (restrict p.numLabels t.vars) c
      · obtain ⟨l1, l2⟩ := inShape_get hc
        obtain ⟨b, hb⟩ := opMessages_len (o := r.o) (a := t.table c) (forall₂_eraseIdx (R := fun (m : List V) l => l < m.length) (l := (scopeOf p.scopes f).map rows) (m := c) (i := i) (by
          intro j m l hji hm' hl
          rw [List.getElem?_map] at hm'
          cases hw : (scopeOf p.scopes f)[j]? with
          | none => rw [hw] at hm'; simp at hm'
          | some w =>
            rw [hw] at hm'
            simp at hm'
            subst hm'
            have hwv : w ≠ v := fun e => hji (idx_unique (hN.nodupF f) (e ▸ hw) hi)
            rw [hrows w (List.mem_of_getElem? hw) hwv, hr.labels]
            exact l2 j w l (by rw [← hsc]; exact hw) hl) (by rw [hsc]; simpa using l1.symm))
        exact ⟨b, fun _ => hb⟩
      · exact ⟨t.table c, fun h => absurd h hc⟩
    choose value hvalue using hval
    obtain ⟨out, e1, e2, _⟩ := accumulateLoop_eq (r := r) (call := gm.callFactor rec) (ms := (scopeOf p.scopes f).map rows) (i := i) (value := value) (lab := fun t => t.getD i 0)
      (ts := tuples fn.shape) (out := List.replicate (gm.numLabels.getD v 0) r.accNeutral) (by
        intro c hc
        rw [mem_tuples, h2, hr.labels] at hc
        obtain ⟨l1, l2⟩ := inShape_get (vs := t.vars) hc
        have hil : i < c.length := by rw [l1, ← hsc]; exact (List.getElem?_eq_some_iff.mp hi).1
        have hci : c[i]? = some (c.getD i 0) := by simp [List.getD, hil]
        refine ⟨hci, ?_, t.table c, DP.callFactor_at hr.toStores hm hc hne, hvalue c hc⟩
        rw [List.length_replicate, hr.labels]
        exact l2 i v _ (by rw [← hsc]; exact hi) hci)
    refine ⟨out, ?_, ?_⟩
    · unfold operateF
      rw [h1]
      exact e1
    · have : (normalize r out).length = out.length := by
        unfold normalize
        simp only
        split <;> simp
      split <;> simp [this, e2]

/-! ### Exact messages -/

/-- The update rules compute the exact messages (up to an invertible factor, if they are normalised). -/
theorem closed_exact (hr : Represents gm p) (hP : p.Values P) (h : Laws r P) (hd : norm = true → Divides r P) (hpos : ∀ n ∈ p.numLabels, 0 < n) (hG : (bipartite p.scopes).IsAcyclic) :
    Closed r gm norm (adjOf gm) (scopeOf p.scopes) (fun v f row => GoodRow h norm p.numLabels v (exVF p.numLabels p.scopes (phi h p) v f) row)
      (fun f v row => GoodRow h norm p.numLabels v (exFV p.numLabels p.scopes (phi h p) f v) row) := by
  have hN := net_of_represents hr
  have hφ := phi_local (p := p) h
  refine ⟨fun _ _ _ hg => by rw [hr.labels]; exact hg.length, fun _ _ _ hg => by rw [hr.labels]; exact hg.length, ?_, ?_, ?_⟩
  · intro v j f hj rows hrows
    have hvf : v ∈ scopeOf p.scopes f := (hN.mem v f).mp (List.mem_of_getElem? hj)
    have hv : v < p.numLabels.length := by rw [← hr.labels]; exact hN.rangeV v f hvf
    rw [List.eraseIdx_map, hr.labels]
    obtain ⟨out, e1, e2⟩ := operate_good (h := h) (norm := norm) hpos hv (ex := fun g => exFV p.numLabels p.scopes (phi h p) g v) (row := rows) (is := (adjOf gm v).eraseIdx j) (by
      intro g hg
      obtain ⟨hlt, e⟩ := List.getElem?_eq_some_iff.mp hj
      rw [← (hN.nodupV v).erase_getElem j hlt, e, (hN.nodupV v).mem_erase_iff] at hg
      exact hrows g hg.2 hg.1)
    refine ⟨out, e1, e2.congr (fun x hx => ?_)⟩
    rw [exVF_rec hG hφ hvf hx, prod_eraseIdx (hN.nodupV v) hj, adjOf_toFinset hr]
  · intro v f hv
    have hvf : v ∈ scopeOf p.scopes f := (hN.mem v f).mp (by rw [hv]; simp)
    refine ⟨by rw [hr.labels]; simp, ?_, r.o.neutral, r.o.neutral, h.value_neutral, h.value_neutral, h.monoid.neutral_left _, fun _ => rfl, ?_⟩
    · intro a ha
      rw [List.eq_of_mem_replicate ha]
      exact h.value_neutral
    · intro x hx a ha
      rw [List.eq_of_mem_replicate (List.mem_of_getElem? ha), exVF_rec hG hφ hvf hx, ← adjOf_toFinset hr, hv]
      simp [val_neutral]
  · intro f i v rec hi hf rows hrows
    have hvf : v ∈ scopeOf p.scopes f := List.mem_of_getElem? hi
    have hv : v < p.numLabels.length := by rw [← hr.labels]; exact hN.rangeV v f hvf
    obtain ⟨t, fn, ht, _, hsc, h1, h2, h3, h4⟩ := term_facts hr hP hf
    rw [hr.labels]
    obtain ⟨out, e1, e2⟩ := operateF_good (h := h) (norm := norm) hpos (hN.nodupF f) hi (fun w hw => by rw [← hr.labels]; exact hN.rangeV w f hw) h1 h2 h3
      (h4 (List.ne_nil_of_mem hvf)) (ex := fun w => exVF p.numLabels p.scopes (phi h p) w f) (row := rows) hrows
    refine ⟨out, e1, ?_⟩
    have e3 : GoodRow h norm p.numLabels v (exFV p.numLabels p.scopes (phi h p) f v) out := by
      refine e2.congr (fun x hx => ?_)
      rw [exFV_rec hG hφ hvf hx]
      apply sumOver_congr
      intro y _
      congr 1
      simp only [phi, ht, Term.value, hsc]
    cases norm with
    | false => exact e3
    | true => exact normalize_good (hd rfl) hpos hv e3

end OpenGM.MessagePassing
