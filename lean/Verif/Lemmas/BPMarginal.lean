import Verif.Lemmas.BPMain
/-
The marginals of the objective, and what `marginal` and `factorMarginal` return.
-/
namespace OpenGM.MessagePassing
open Spec BP Lift
variable {V : Type} {r : Rules V} {P : V → Prop} {gm : GM V} {p : Problem V} {norm : Bool}

theorem scopes_length : p.scopes.length = p.terms.length := by simp [Problem.scopes]

/-- The objective as a product. -/
theorem val_energy (h : Laws r P) (hP : p.Values P) (hrange : ∀ t ∈ p.terms, ∀ v ∈ t.vars, v < p.numLabels.length) {x : List Nat} (hx : x ∈ Om p.numLabels) :
    P (p.energy r.o x) ∧ val h (p.energy r.o x) = ∏ g ∈ Finset.range p.scopes.length, phi h p g x := by
  have hl : ∀ a ∈ p.terms.map (fun t => t.value x), P a := by
    intro a ha
    obtain ⟨t, ht, rfl⟩ := List.mem_map.mp ha
    exact hP t ht _ (restrict_inShape hx (hrange t ht))
  obtain ⟨q1, q2⟩ := val_foldl (h := h) hl h.value_neutral
  refine ⟨q1, ?_⟩
  unfold Problem.energy
  rw [q2, val_neutral, one_mul, List.map_map]
  have e : p.terms.map (val h ∘ fun t => t.value x) = (List.range p.scopes.length).map (fun g => phi h p g x) := by
    apply List.ext_getElem?
    intro g
    rw [List.getElem?_map, List.getElem?_map, scopes_length]
    by_cases hg : g < p.terms.length
    · rw [List.getElem?_range hg, List.getElem?_eq_getElem hg]
      simp [phi, List.getElem?_eq_getElem hg]
    · rw [List.getElem?_eq_none (by omega), List.getElem?_eq_none (by simpa using hg)]; rfl
  rw [e, ← List.prod_toFinset _ List.nodup_range, List.toFinset_range]

open scoped Classical in
theorem val_marginal (h : Laws r P) (hP : p.Values P) (hrange : ∀ t ∈ p.terms, ∀ v ∈ t.vars, v < p.numLabels.length) {x : List Nat} (hx : x ∈ Om p.numLabels) (vs : List Nat) :
    P (p.marginal r.o r.accOp r.accNeutral vs (restrict x vs)) ∧
      val h (p.marginal r.o r.accOp r.accNeutral vs (restrict x vs)) =
        sumOver p.numLabels {w | w ∈ vs}ᶜ (fun y => ∏ g ∈ Finset.range p.scopes.length, phi h p g y) x := by
  have hmem : ∀ y, y ∈ (allTuples p.numLabels).filter (fun y => decide (restrict y vs = restrict x vs)) ↔ y ∈ cyl p.numLabels {w | w ∈ vs}ᶜ x := by
    intro y
    rw [List.mem_filter, mem_cyl, Om, List.mem_toFinset]
    refine and_congr_right fun _ => ?_
    simp only [decide_eq_true_eq, restrict, List.map_inj_left, BP.Agree, Set.mem_compl_iff, Set.mem_setOf_eq, not_not]
  have hE : ∀ y ∈ cyl p.numLabels {w | w ∈ vs}ᶜ x, P (p.energy r.o y) ∧ val h (p.energy r.o y) = ∏ g ∈ Finset.range p.scopes.length, phi h p g y :=
    fun y hy => val_energy h hP hrange (mem_cyl.mp hy).1
  obtain ⟨q1, q2⟩ := val_accumulate (h := h) (l := ((allTuples p.numLabels).filter (fun y => decide (restrict y vs = restrict x vs))).map (p.energy r.o)) (by
    intro a ha
    obtain ⟨y, hy, rfl⟩ := List.mem_map.mp ha
    exact (hE y ((hmem y).mp hy)).1) (by
    intro e
    rw [List.map_eq_nil_iff] at e
    have := (hmem x).mpr (mem_cyl.mpr ⟨hx, BP.Agree.refl _ _⟩)
    rw [e] at this
    simp at this)
  refine ⟨q1, ?_⟩
  unfold Problem.marginal
  rw [q2, List.map_map, ← List.sum_toFinset _ ((nodup_allTuples _).filter _)]
  unfold sumOver
  apply Finset.sum_congr
  · ext y
    rw [List.mem_toFinset]
    exact hmem y
  · intro y hy
    exact (hE y hy).2

theorem sumOver_set {R : Type} [CommSemiring R] {nl : List Nat} {S T : Set Nat} (e : ∀ v < nl.length, v ∈ S ↔ v ∈ T) (g : List Nat → R) {x : List Nat} (hx : x ∈ Om nl) :
    sumOver nl S g x = sumOver nl T g x := by
  unfold sumOver
  congr 1
  ext y
  rw [mem_cyl, mem_cyl]
  refine and_congr_right fun hy => ?_
  constructor
  · intro h v hv
    by_cases hvn : v < nl.length
    · exact h v (fun h' => hv ((e v hvn).mp h'))
    · exact Om_out hy hx hvn
  · intro h v hv
    by_cases hvn : v < nl.length
    · exact h v (fun h' => hv ((e v hvn).mpr h'))
    · exact Om_out hy hx hvn

theorem exists_Om {nl : List Nat} (hp : ∀ n ∈ nl, 0 < n) : ∃ x, x ∈ Om nl := by
  refine ⟨List.replicate nl.length 0, mem_Om.mpr ⟨by simp, fun v hv => ?_⟩⟩
  have := hp _ (List.getElem_mem hv)
  simpa [List.getD, hv] using this

/-- Marginals of the objective and of a component. -/
theorem marginal_component (h : Laws r P) (hP : p.Values P) (hrange : ∀ t ∈ p.terms, ∀ v ∈ t.vars, v < p.numLabels.length) (hpos : ∀ n ∈ p.numLabels, 0 < n)
    (a : Nat ⊕ Nat) (vs : List Nat) (hD : ∀ u ∈ vs, u ∈ compV p.scopes a) :
    ∃ c, P c ∧ (p.Connected a → c = r.o.neutral) ∧ ∀ x ∈ Om p.numLabels, val h (p.marginal r.o r.accOp r.accNeutral vs (restrict x vs)) =
      val h c * sumOver p.numLabels (compV p.scopes a \ {w | w ∈ vs}) (fun y => ∏ g ∈ compF p.scopes a, phi h p g y) x := by
  by_cases hcon : p.Connected a
  · refine ⟨r.o.neutral, h.value_neutral, fun _ => rfl, fun x hx => ?_⟩
    rw [(val_marginal h hP hrange hx vs).2, val_neutral, one_mul]
    have e1 : compF p.scopes a = Finset.range p.scopes.length := by
      ext g
      simp only [compF, Finset.mem_filter, Finset.mem_range, and_iff_left_iff_imp]
      intro hg
      exact hcon.2 g (by rw [← scopes_length]; exact hg)
    rw [e1]
    apply sumOver_set _ _ hx
    intro v hv
    simp only [Set.mem_compl_iff, Set.mem_diff]
    exact ⟨fun h => ⟨hcon.1 v hv, h⟩, fun h => h.2⟩
  · obtain ⟨C, hC⟩ := comp_rest (phi_local (p := p) h) a {w | w ∈ vs} hD
    obtain ⟨x0, hx0⟩ := exists_Om hpos
    have hC0 : C ≠ 0 := by
      intro e
      obtain ⟨q1, q2⟩ := val_marginal h hP hrange hx0 vs
      rw [hC x0 hx0, e, zero_mul] at q2
      exact val_ne q1 q2
    obtain ⟨c, hc, rfl⟩ := exists_val hC0
    exact ⟨c, hc, fun h => absurd h hcon, fun x hx => by rw [(val_marginal h hP hrange hx vs).2, hC x hx]⟩

/-- `normalize` multiplies with an invertible value. -/
theorem normalize_unit (hd : Divides r P) (h : Laws r P) {row : List V} (hval : ∀ a ∈ row, P a) (hne : row ≠ []) :
    ∃ c d, P c ∧ P d ∧ r.o.op c d = r.o.neutral ∧ normalize r row = row.map (r.o.op c) := by
  obtain ⟨p1, _⟩ := val_accumulate (h := h) hval hne
  unfold normalize
  simp only
  split
  · refine ⟨r.o.neutral, r.o.neutral, h.value_neutral, h.value_neutral, h.monoid.neutral_left _, ?_⟩
    have : r.o.op r.o.neutral = id := funext (fun a => h.monoid.neutral_left a)
    rw [this, List.map_id]
  · rename_i hs
    have hs' : r.skip (accumulate r.accOp r.accNeutral row) = false := Bool.eq_false_iff.mpr hs
    obtain ⟨c, d, pc, pd, u, hc⟩ := hd.unit _ p1 hs'
    exact ⟨c, d, pc, pd, u, List.map_congr_left (fun a ha => hc a (hval a ha))⟩

/-- The messages after an inference that was not stopped. -/
theorem messages_exact (hr : Represents gm p) (hG : (bipartite p.scopes).IsAcyclic) {GV GF : Nat → Nat → List V → Prop} {s : MP V} {sV sF : Finset (Nat × Nat)} {cV cF : List (List Nat)}
    (hJ : J r gm norm (adjOf gm) (scopeOf p.scopes) GV GF s sV sF cV cF [] []) :
    (∀ v, v < gm.numLabels.length → ∃ (ins : List (Buffer V)) (rows : Nat → List V), s.varIn[v]? = some ins ∧ ins.map Buffer.current = (adjOf gm v).map rows ∧ ∀ f ∈ adjOf gm v, GF f v (rows f)) ∧
    (∀ f, f < gm.factors.length → ∃ (ins : List (Buffer V)) (rows : Nat → List V), s.facIn[f]? = some ins ∧ ins.map Buffer.current = (scopeOf p.scopes f).map rows ∧ ∀ v ∈ scopeOf p.scopes f, GV v f (rows v)) := by
  have hN := net_of_represents hr
  have hall := fun m => all_sent hG hN.mem hJ.halfV hJ.halfF m
  constructor
  · intro v hv
    obtain ⟨ins, h1, h2⟩ := hJ.inv.varLen v hv
    obtain ⟨rows, e1, e2⟩ := rows_exist (hN.nodupV v) h2
    refine ⟨ins, rows, h1, e1, fun f hf => ?_⟩
    obtain ⟨j, hj, hjf⟩ := List.getElem_of_mem hf
    have hj' : (adjOf gm v)[j]? = some f := by rw [List.getElem?_eq_getElem hj, hjf]
    obtain ⟨b, hb1, hb2⟩ := hJ.contF f v ((hall _).2 v f ((hN.mem v f).mp hf) (le_refl _)) j hj'
    have hij : ins[j]? = some b := by
      unfold getBuffer at hb1
      rw [h1] at hb1
      exact hb1
    rw [e2 j f b hj' hij]
    exact hb2
  · intro f hf
    obtain ⟨ins, h1, h2⟩ := hJ.inv.facLen f hf
    obtain ⟨rows, e1, e2⟩ := rows_exist (hN.nodupF f) h2
    refine ⟨ins, rows, h1, e1, fun v hv => ?_⟩
    obtain ⟨j, hj, hjf⟩ := List.getElem_of_mem hv
    have hj' : (scopeOf p.scopes f)[j]? = some v := by rw [List.getElem?_eq_getElem hj, hjf]
    obtain ⟨b, hb1, hb2⟩ := hJ.contV v f ((hall _).1 v f hv (le_refl _)) j hj'
    have hij : ins[j]? = some b := by
      unfold getBuffer at hb1
      rw [h1] at hb1
      exact hb1
    rw [e2 j v b hj' hij]
    exact hb2

/-- What is returned: values proportional to the marginals of the variables `vs`, for the labels `ts`. -/
structure Proportional (r : Rules V) (P : V → Prop) (norm : Bool) (p : Problem V) (a : Nat ⊕ Nat) (vs : List Nat) (ts : List (List Nat)) (out : List V) : Prop where
  length : out.length = ts.length
  values : ∀ a ∈ out, P a
  scale : ∃ c, P c ∧ (norm = false → p.Connected a → c = r.o.neutral) ∧
    ∀ (k : Nat) (t : List Nat) (b : V), ts[k]? = some t → out[k]? = some b → p.marginal r.o r.accOp r.accNeutral vs t = r.o.op c b
  total : norm = true → accumulate r.accOp r.accNeutral out = r.o.neutral ∨ r.skip (accumulate r.accOp r.accNeutral out) = true

/-- Normalise what is proportional. -/
theorem Proportional.finish {a : Nat ⊕ Nat} {vs : List Nat} {ts : List (List Nat)} {out : List V} (h : Laws r P) (hd : norm = true → Divides r P) (hne : ts ≠ [])
    (hlen : out.length = ts.length) (hval : ∀ a ∈ out, P a) (hs : ∃ c, P c ∧ (norm = false → p.Connected a → c = r.o.neutral) ∧
      ∀ (k : Nat) (t : List Nat) (b : V), ts[k]? = some t → out[k]? = some b → p.marginal r.o r.accOp r.accNeutral vs t = r.o.op c b) :
    Proportional r P norm p a vs ts (if norm then normalize r out else out) := by
  have hon : out ≠ [] := by
    intro e
    rw [e] at hlen
    exact hne (List.eq_nil_of_length_eq_zero (by simpa using hlen.symm))
  cases norm with
  | false => exact ⟨hlen, hval, hs, by simp⟩
  | true =>
    simp only [if_true]
    obtain ⟨c, d, pc, pd, u, e⟩ := normalize_unit (hd rfl) h hval hon
    refine ⟨by rw [e]; simpa using hlen, ?_, ?_, fun _ => ?_⟩
    · rw [e]
      intro b hb
      obtain ⟨a, ha, rfl⟩ := List.mem_map.mp hb
      exact h.value_op pc (hval a ha)
    · obtain ⟨c0, p0, _, g⟩ := hs
      refine ⟨r.o.op c0 d, h.value_op p0 pd, by simp, ?_⟩
      intro k t b ht hb
      rw [e, List.getElem?_map] at hb
      cases hk : out[k]? with
      | none => rw [hk] at hb; simp at hb
      | some b0 =>
        rw [hk] at hb
        simp at hb
        subst hb
        rw [g k t b0 ht hk, h.monoid.assoc, ← h.monoid.assoc d c, h.monoid.comm d c, u, h.monoid.neutral_left]
    · rcases normalize_total (hd rfl) h hval hon with h1 | ⟨h1, h2⟩
      · exact Or.inl h1
      · exact Or.inr (by rw [h2]; exact h1)

theorem marginal_exact (hr : Represents gm p) (hP : p.Values P) (h : Laws r P) (hd : norm = true → Divides r P) (hpos : ∀ n ∈ p.numLabels, 0 < n) (hG : (bipartite p.scopes).IsAcyclic)
    (hrange : ∀ t ∈ p.terms, ∀ v ∈ t.vars, v < p.numLabels.length)
    {s : MP V} {sV sF : Finset (Nat × Nat)} {cV cF : List (List Nat)}
    (hJ : J r gm norm (adjOf gm) (scopeOf p.scopes) (fun v f row => GoodRow h norm p.numLabels v (exVF p.numLabels p.scopes (phi h p) v f) row)
      (fun f v row => GoodRow h norm p.numLabels v (exFV p.numLabels p.scopes (phi h p) f v) row) s sV sF cV cF [] [])
    {v : Nat} (hv : v < p.numLabels.length) :
    ∃ out, marginal r s v = some out ∧ Proportional r P norm p (.inl v) [v] ((List.range (p.numLabels.getD v 0)).map (fun l => [l])) out := by
  have hN := net_of_represents hr
  obtain ⟨ins, rows, h1, h2, h3⟩ := (messages_exact hr hG hJ).1 v (by rw [hr.labels]; exact hv)
  obtain ⟨out, e1, e2⟩ := operate_good (h := h) (norm := norm) hpos hv (ex := fun g => exFV p.numLabels p.scopes (phi h p) g v) (row := rows) (is := adjOf gm v) h3
  obtain ⟨c0, hc0, hcon, hmarg⟩ := marginal_component h hP hrange hpos (.inl v) [v] (by
    intro u hu
    rw [List.mem_singleton] at hu
    subst hu
    exact SimpleGraph.Reachable.refl _)
  refine ⟨if norm then normalize r out else out, ?_, ?_⟩
  · unfold marginal
    rw [h1, hJ.inv.model, hr.labels, List.getElem?_eq_getElem hv, hJ.flag]
    simp only
    rw [h2]
    have : p.numLabels[v] = p.numLabels.getD v 0 := by simp [List.getD, hv]
    rw [this, e1]
    rfl
  · obtain ⟨l1, l2, c, d, pc, pd, u, nn, g⟩ := e2
    refine Proportional.finish h hd ?_ (by simpa using l1) l2 ⟨r.o.op c0 d, h.value_op hc0 pd, ?_, ?_⟩
    · have := hpos _ (List.getElem_mem hv)
      intro e
      simp [List.getD, hv] at e
      omega
    · intro hn hc
      have hc1 := nn hn
      rw [hc1, h.monoid.neutral_left] at u
      rw [hcon hc, u, h.monoid.neutral_left]
    · intro k t b ht hb
      rw [List.getElem?_map] at ht
      have hk : k < p.numLabels.getD v 0 := by rw [← l1]; exact (List.getElem?_eq_some_iff.mp hb).1
      rw [List.getElem?_range hk] at ht
      simp at ht
      subst ht
      obtain ⟨x, hx, hxl⟩ := exists_labeling hpos hv hk
      have hb' := g x hx b (by rw [hxl]; exact hb)
      have hre : restrict x [v] = [k] := by simp only [restrict, List.map_cons, List.map_nil, hxl]
      have hm := hmarg x hx
      rw [hre] at hm
      have pb := l2 b (List.mem_of_getElem? hb)
      have pm := (val_marginal h hP hrange hx [v]).1
      rw [hre] at pm
      apply val_inj (h := h) pm (h.value_op (h.value_op hc0 pd) pb)
      have hset : (compV p.scopes (.inl v) \ {w | w ∈ [v]}) = compV p.scopes (.inl v) \ {v} := by
        ext w; simp
      rw [hm, hset, belief_var hG (phi_local h) hx, val_op (h.value_op hc0 pd) pb, val_op hc0 pd, hb', mul_assoc]
      have hu : val h d * (val h c * ((adjOf gm v).map (fun i => exFV p.numLabels p.scopes (phi h p) i v x)).prod) =
          ((adjOf gm v).map (fun i => exFV p.numLabels p.scopes (phi h p) i v x)).prod := by
        rw [← mul_assoc, ← val_op pd pc, h.monoid.comm d c, u, val_neutral, one_mul]
      rw [hu, ← List.prod_toFinset _ (hN.nodupV v), adjOf_toFinset hr]

theorem operateAll_eq {o : Operation V} {call : List Nat → Option V} {ms : List (List V)} {value : List Nat → V} :
    ∀ {ts : List (List Nat)}, (∀ t ∈ ts, ∃ a, call t = some a ∧ opMessages o ms t a = some (value t)) → operateAll o call ms ts = some (ts.map value)
  | [], _ => rfl
  | t :: ts, ht => by
    obtain ⟨a, h1, h2⟩ := ht t (by simp)
    rw [operateAll, h1]
    simp only
    rw [h2, operateAll_eq (fun t' h' => ht t' (List.mem_cons_of_mem _ h'))]
    rfl

theorem factorMarginal_exact (hr : Represents gm p) (hP : p.Values P) (h : Laws r P) (hd : norm = true → Divides r P) (hpos : ∀ n ∈ p.numLabels, 0 < n) (hG : (bipartite p.scopes).IsAcyclic)
    (hrange : ∀ t ∈ p.terms, ∀ v ∈ t.vars, v < p.numLabels.length)
    {s : MP V} {sV sF : Finset (Nat × Nat)} {cV cF : List (List Nat)}
    (hJ : J r gm norm (adjOf gm) (scopeOf p.scopes) (fun v f row => GoodRow h norm p.numLabels v (exVF p.numLabels p.scopes (phi h p) v f) row)
      (fun f v row => GoodRow h norm p.numLabels v (exFV p.numLabels p.scopes (phi h p) f v) row) s sV sF cV cF [] [])
    {f : Nat} {t : Term V} (ht : p.terms[f]? = some t) (hne : t.vars ≠ []) :
    ∃ out, factorMarginal r s f = some out ∧ Proportional r P norm p (.inr f) t.vars (allTuples (restrict p.numLabels t.vars)) out := by
  have hN := net_of_represents hr
  have hfl : f < gm.factors.length := by rw [hr.factors.length_eq]; exact (List.getElem?_eq_some_iff.mp ht).1
  have hrec := List.getElem?_eq_getElem hfl
  obtain ⟨t', fn, ht', hm, hsc, g1, g2, g3, g4⟩ := term_facts hr hP hrec
  rw [ht] at ht'
  cases ht'
  obtain ⟨ins, rows, h1, h2, h3⟩ := (messages_exact hr hG hJ).2 f hfl
  rw [hsc] at g2 g3 g4 h2 h3
  have hnd : t.vars.Nodup := by rw [← hsc]; exact hN.nodupF f
  have hrg : ∀ w ∈ t.vars, w < p.numLabels.length := hrange t (List.mem_of_getElem? ht)
  obtain ⟨c, d, pc, pd, u, nn, g⟩ := prod_rows (fun w => w) (fun w => exVF p.numLabels p.scopes (phi h p) w f) rows t.vars h3
  obtain ⟨x0, hx0⟩ := exists_Om hpos
  have hval : ∀ q, ∃ b, InShape (restrict p.numLabels t.vars) q → opMessages r.o (t.vars.map rows) q (t.table q) = some b ∧ P b ∧
      ∃ y ∈ Om p.numLabels, restrict y t.vars = q ∧ val h b = val h (t.table q) * (val h c * ∏ w ∈ t.vars.toFinset, exVF p.numLabels p.scopes (phi h p) w f y) := by
    intro q
    by_cases hq : InShape (restrict p.numLabels t.vars) q
    · obtain ⟨y, hy, e, _⟩ := exists_fill hx0 hnd hrg hq
      obtain ⟨bs, b1, b2⟩ := opMessages_eq (o := r.o) (row := rows) (lab := fun w => y.getD w 0) (is := t.vars) (a := t.table q) (by
        intro w hw
        rw [(h3 w hw).length]
        exact (mem_Om.mp hy).2 w (hrg w hw))
      obtain ⟨p1, p2⟩ := g y hy bs b1
      obtain ⟨q1, q2⟩ := val_foldl (h := h) p1 (g3 q hq)
      refine ⟨_, fun _ => ⟨?_, q1, y, hy, e, ?_⟩⟩
      · rw [← b2, ← e]; rfl
      · rw [q2, p2, List.prod_toFinset _ hnd]
    · exact ⟨t.table q, fun h => absurd h hq⟩
  choose value hvalue using hval
  have hsh : fn.shape ≠ [] := by rw [g2, restrict, Ne, List.map_eq_nil_iff]; exact hne
  have hop := operateAll_eq (o := r.o) (call := gm.callFactor gm.factors[f]) (ms := t.vars.map rows) (value := value) (ts := allTuples fn.shape) (by
    intro q hq
    rw [mem_allTuples, g2] at hq
    exact ⟨_, g4 hne q hq, (hvalue q hq).1⟩)
  obtain ⟨c0, hc0, hcon, hmarg⟩ := marginal_component h hP hrange hpos (.inr f) t.vars (by
    intro w hw
    exact (adj_iff'.mpr (by rw [hsc]; exact hw)).reachable)
  refine ⟨if norm then normalize r ((allTuples fn.shape).map value) else (allTuples fn.shape).map value, ?_, ?_⟩
  · unfold factorMarginal
    rw [h1, hJ.inv.model, hrec]
    simp only
    rw [g1]
    simp only
    rw [if_neg hsh, h2, hop, hJ.flag]
    rfl
  · rw [g2]
    have hin : ∀ q ∈ allTuples (restrict p.numLabels t.vars), InShape (restrict p.numLabels t.vars) q := fun q hq => (mem_allTuples _ _).mp hq
    refine Proportional.finish h hd ?_ (by simp) ?_ ⟨r.o.op c0 d, h.value_op hc0 pd, ?_, ?_⟩
    · intro e
      have := (mem_allTuples (restrict p.numLabels t.vars) _).mpr (restrict_inShape hx0 hrg)
      rw [e] at this
      simp at this
    · intro b hb
      obtain ⟨q, hq, rfl⟩ := List.mem_map.mp hb
      exact (hvalue q (hin q hq)).2.1
    · intro hn hc
      have hc1 := nn hn
      rw [hc1, h.monoid.neutral_left] at u
      rw [hcon hc, u, h.monoid.neutral_left]
    · intro k q b hq hb
      rw [List.getElem?_map, hq] at hb
      simp at hb
      subst hb
      obtain ⟨_, pb, y, hy, e, hv⟩ := hvalue q (hin q (List.mem_of_getElem? hq))
      have hm' := hmarg y hy
      have pm := (val_marginal h hP hrange hy t.vars).1
      rw [e] at hm' pm
      apply val_inj (h := h) pm (h.value_op (h.value_op hc0 pd) pb)
      have hset : (compV p.scopes (.inr f) \ {w | w ∈ t.vars}) = {u | u ∈ compV p.scopes (.inr f) ∧ u ∉ scopeOf p.scopes f} := by
        ext w; simp [hsc]
      have hφf : phi h p f y = val h (t.table q) := by simp only [phi, ht, Term.value, e]
      rw [hm', hset, belief_fac hG (phi_local h) (scope_lt (v := t.vars.head hne) (by rw [hsc]; exact List.head_mem hne)) hy, hφf, val_op (h.value_op hc0 pd) pb, val_op hc0 pd, hv, hsc, mul_assoc]
      congr 1
      rw [mul_left_comm, ← mul_assoc (val h d), ← val_op pd pc, h.monoid.comm d c, u, val_neutral, one_mul]

/-- The marginals accumulate to the partition function. -/
theorem accumulate_marginals (h : Laws r P) (hP : p.Values P) (hrange : ∀ t ∈ p.terms, ∀ v ∈ t.vars, v < p.numLabels.length) (hpos : ∀ n ∈ p.numLabels, 0 < n)
    {vs : List Nat} (hn : vs.Nodup) (hvs : ∀ v ∈ vs, v < p.numLabels.length) {ts : List (List Nat)} (hts : ∀ t, t ∈ ts ↔ InShape (restrict p.numLabels vs) t) (hnd : ts.Nodup) :
    (∀ t ∈ ts, P (p.marginal r.o r.accOp r.accNeutral vs t)) ∧
    accumulate r.accOp r.accNeutral (ts.map (fun t => p.marginal r.o r.accOp r.accNeutral vs t)) = p.partition r.o r.accOp r.accNeutral := by
  obtain ⟨x0, hx0⟩ := exists_Om hpos
  have hm : ∀ t ∈ ts, P (p.marginal r.o r.accOp r.accNeutral vs t) ∧ val h (p.marginal r.o r.accOp r.accNeutral vs t) =
      ∑ y ∈ (Om p.numLabels).filter (fun y => restrict y vs = t), val h (p.energy r.o y) := by
    intro t ht
    obtain ⟨y, hy, e, _⟩ := exists_fill hx0 hn hvs ((hts t).mp ht)
    obtain ⟨q1, q2⟩ := val_marginal h hP hrange hy vs
    rw [e] at q1 q2
    refine ⟨q1, ?_⟩
    rw [q2]
    unfold sumOver
    apply Finset.sum_congr
    · ext z
      rw [mem_cyl, Finset.mem_filter, ← e]
      refine and_congr_right fun _ => ?_
      simp only [restrict, List.map_inj_left, BP.Agree, Set.mem_compl_iff, Set.mem_setOf_eq, not_not]
    · intro z hz
      exact (val_energy h hP hrange (Finset.mem_filter.mp hz).1).2.symm
  refine ⟨fun t ht => (hm t ht).1, ?_⟩
  have htn : ts ≠ [] := List.ne_nil_of_mem ((hts _).mpr (restrict_inShape hx0 hvs))
  obtain ⟨a1, a2⟩ := val_accumulate (h := h) (l := ts.map (fun t => p.marginal r.o r.accOp r.accNeutral vs t)) (by
    intro a ha
    obtain ⟨t, ht, rfl⟩ := List.mem_map.mp ha
    exact (hm t ht).1) (by simpa using htn)
  obtain ⟨b1, b2⟩ := val_accumulate (h := h) (l := (allTuples p.numLabels).map (p.energy r.o)) (by
    intro a ha
    obtain ⟨t, ht, rfl⟩ := List.mem_map.mp ha
    exact (val_energy h hP hrange (by simpa [Om] using ht)).1) (by
    intro e
    rw [List.map_eq_nil_iff] at e
    rw [Om, e] at hx0
    simp at hx0)
  apply val_inj (h := h) a1 b1
  rw [a2, b2, List.map_map, List.map_map, ← List.sum_toFinset _ hnd, ← List.sum_toFinset _ (nodup_allTuples _)]
  have e1 : ∑ t ∈ ts.toFinset, (val h ∘ fun t => p.marginal r.o r.accOp r.accNeutral vs t) t =
      ∑ t ∈ ts.toFinset, ∑ y ∈ (Om p.numLabels).filter (fun y => restrict y vs = t), val h (p.energy r.o y) :=
    Finset.sum_congr rfl (fun t ht => (hm t (List.mem_toFinset.mp ht)).2)
  rw [e1, Finset.sum_fiberwise_of_maps_to]
  · rfl
  · intro y hy
    rw [List.mem_toFinset, hts]
    exact restrict_inShape hy hvs

/-- The scale of what is returned, and the partition function. -/
theorem Proportional.partition {a : Nat ⊕ Nat} {vs : List Nat} {ts : List (List Nat)} {out : List V} (hpr : Proportional r P norm p a vs ts out)
    (h : Laws r P) (hP : p.Values P) (hrange : ∀ t ∈ p.terms, ∀ v ∈ t.vars, v < p.numLabels.length) (hpos : ∀ n ∈ p.numLabels, 0 < n)
    (hn : vs.Nodup) (hvs : ∀ v ∈ vs, v < p.numLabels.length) (hts : ∀ t, t ∈ ts ↔ InShape (restrict p.numLabels vs) t) (hnd : ts.Nodup) :
    ∃ c, P c ∧ (norm = false → p.Connected a → c = r.o.neutral) ∧ p.MarginalsOver r.o r.accOp r.accNeutral vs ts c out ∧
      p.partition r.o r.accOp r.accNeutral = r.o.op c (accumulate r.accOp r.accNeutral out) := by
  obtain ⟨c, pc, hc, hs⟩ := hpr.scale
  refine ⟨c, pc, hc, ⟨hpr.length, hs⟩, ?_⟩
  obtain ⟨x0, hx0⟩ := exists_Om hpos
  have htn : ts ≠ [] := List.ne_nil_of_mem ((hts _).mpr (restrict_inShape hx0 hvs))
  have hon : out ≠ [] := by
    intro e
    have := hpr.length
    rw [e] at this
    exact htn (List.eq_nil_of_length_eq_zero (by simpa using this.symm))
  obtain ⟨g1, g2⟩ := accumulate_marginals h hP hrange hpos hn hvs hts hnd
  have e : ts.map (fun t => p.marginal r.o r.accOp r.accNeutral vs t) = out.map (r.o.op c) := by
    apply List.ext_getElem?
    intro k
    rw [List.getElem?_map, List.getElem?_map]
    by_cases hk : k < ts.length
    · have hk' : k < out.length := by rw [hpr.length]; exact hk
      rw [List.getElem?_eq_getElem hk, List.getElem?_eq_getElem hk']
      simp only [Option.map_some]
      rw [hs k _ _ (List.getElem?_eq_getElem hk) (List.getElem?_eq_getElem hk')]
    · rw [List.getElem?_eq_none (by omega), List.getElem?_eq_none (by rw [hpr.length]; omega)]; rfl
  obtain ⟨a1, a2⟩ := val_accumulate (h := h) hpr.values hon
  obtain ⟨b1, b2⟩ := val_accumulate (h := h) (l := out.map (r.o.op c)) (by
    intro a ha
    obtain ⟨t, ht, rfl⟩ := List.mem_map.mp ha
    exact h.value_op pc (hpr.values t ht)) (by simpa using hon)
  rw [← g2, e]
  apply val_inj (h := h) b1 (h.value_op pc a1)
  rw [b2, val_op pc a1, a2, ← List.sum_map_mul_left, List.map_map]
  congr 1
  apply List.map_congr_left
  intro a ha
  exact val_op pc (hpr.values a ha)

end OpenGM.MessagePassing
