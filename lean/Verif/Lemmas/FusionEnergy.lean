import Verif.Lemmas.FusionModel
/-
FusionMover: the fusion model is a built model, its energy, and the result.
-/
namespace OpenGM.Fusion
open Spec
variable {V : Type}

/-! ### Histories -/

/-- The client `c` has built `b` by valid calls. -/
def Hist (n : Nat) (c : Client V) (b : Built V) : Prop :=
  ∃ ops : List (BuildOp V), ValidHistory n Built.empty ops ∧ (Client.init n).run (fun _ _ => false) ops = .ok () c ∧ builtAfter ops = b

theorem eqvFalse : EqvSound (V := V) (fun _ _ => false) := by intro f g h; simp at h

theorem validHistory_append {n : Nat} : ∀ (ops ops' : List (BuildOp V)) (b : Built V), ValidHistory n b ops → ValidHistory n (ops.foldl BuildOp.apply b) ops' → ValidHistory n b (ops ++ ops')
  | [], _, _, _, h => h
  | _ :: ops, ops', _, h1, h2 => ⟨h1.1, validHistory_append ops ops' _ h1.2 h2⟩

theorem run_append {eqv : Fn V → Fn V → Bool} : ∀ (ops ops' : List (BuildOp V)) (c c' : Client V), c.run eqv ops = .ok () c' → c.run eqv (ops ++ ops') = c'.run eqv ops'
  | [], _, c, c', h => by
    simp only [Client.run] at h
    cases h
    rfl
  | op :: ops, ops', c, c', h => by
    simp only [Client.run, List.cons_append] at h ⊢
    cases hs : c.step eqv op with
    | ok u c1 => rw [hs] at h; exact run_append ops ops' c1 c' h
    | throw c1 => rw [hs] at h; cases h
    | ub => rw [hs] at h; cases h

theorem Hist.step {n : Nat} {c c' : Client V} {b : Built V} (h : Hist n c b) (op : BuildOp V) (hv : op.Valid n b) (e : c.step (fun _ _ => false) op = .ok () c') : Hist n c' (op.apply b) := by
  obtain ⟨ops, h1, h2, rfl⟩ := h
  refine ⟨ops ++ [op], validHistory_append _ _ _ h1 ⟨hv, trivial⟩, ?_, by simp [builtAfter]⟩
  rw [run_append _ _ _ _ h2]
  simp only [Client.run, e]

theorem Hist.inv {n : Nat} {c : Client V} {b : Built V} (h : Hist n c b) : ClientInv n c b := by
  obtain ⟨ops, h1, h2, rfl⟩ := h
  obtain ⟨c', e1, e2⟩ := client_run eqvFalse ops (client_init n) h1
  rw [h2] at e1
  cases e1
  exact e2

theorem Hist.built {n : Nat} {c : Client V} {b : Built V} (h : Hist n c b) : BuiltModel c.gm b.problem := by
  obtain ⟨ops, h1, h2, rfl⟩ := h
  exact ⟨n, _, ops, c, eqvFalse, h1, h2, rfl, rfl⟩

theorem hist_space (nT l : Nat) : ∀ n : Nat, Hist (V := V) nT ⟨GM.ofSpace nT (List.replicate n l), []⟩ ⟨List.replicate n l, [], []⟩
  | 0 => ⟨[], trivial, rfl, rfl⟩
  | n + 1 => by
    have := (hist_space nT l n).step (c' := ⟨GM.ofSpace nT (List.replicate (n + 1) l), []⟩) (.addVariable l) trivial (by
      simp only [Client.step, GM.addVariable, GM.ofSpace, List.length_replicate, ← List.replicate_succ'])
    simpa only [BuildOp.apply, ← List.replicate_succ'] using this

/-- The factors of a fusion model with `n` variables. -/
def EmitOk (n : Nat) (e : Nat × Fn V × List Nat) : Prop :=
  e.1 < 3 ∧ e.2.2.Pairwise (· < ·) ∧ (∀ v ∈ e.2.2, v < n) ∧ e.2.1.shape = List.replicate e.2.2.length 2

theorem addAll_native {n : Nat} : ∀ (es : List (Nat × Fn V × List Nat)) (c : Client V) (b : Built V), Hist 3 c b → b.numLabels = List.replicate n 2 → (∀ e ∈ es, EmitOk n e) →
    ∃ c' b', addAll native c.gm es = some c'.gm ∧ Hist 3 c' b' ∧ b'.numLabels = List.replicate n 2 ∧ b'.terms = b.terms ++ es.map (fun e => ⟨e.2.2, e.2.1.table⟩)
  | [], c, b, h, hb, _ => ⟨c, b, rfl, h, hb, by simp⟩
  | e :: es, c, b, h, hb, he => by
    obtain ⟨k1, k2, k3, k4⟩ := he e (by simp)
    obtain ⟨c1, s1, i1⟩ := client_step eqvFalse h.inv (.addFunction e.1 e.2.1) k1
    have h1 := h.step _ (by exact k1) s1
    have hids : c.ids.length = b.handles.length := h.inv.ids.length_eq
    have hv2 : (BuildOp.addFactor (V := V) b.handles.length e.2.2).Valid 3 ((BuildOp.addFunction e.1 e.2.1).apply b) := by
      refine ⟨k2, by simpa [BuildOp.apply, hb] using k3, e.2.1, by simp [BuildOp.apply], ?_⟩
      rw [k4]
      simp only [BuildOp.apply, restrict, hb]
      rw [← List.map_const']
      apply List.map_congr_left
      intro v hv
      simp [List.getD, k3 v hv]
    obtain ⟨c2, s2, i2⟩ := client_step eqvFalse i1 _ hv2
    have h2 := h1.step _ hv2 s2
    obtain ⟨c', b', e1, e2, e3, e4⟩ := addAll_native es c2 _ h2 (by simp [BuildOp.apply, hb]) (fun e' he' => he e' (by simp [he']))
    refine ⟨c', b', ?_, e2, e3, by simp [e4, BuildOp.apply]⟩
    rw [addAll_cons]
    have hadd : native.addFactor c.gm e.1 e.2.1 e.2.2 = some c2.gm := by
      simp only [native]
      simp only [Client.step] at s1
      cases hf : c.gm.addFunction e.1 e.2.1 with
      | none => rw [hf] at s1; cases s1
      | some r =>
        obtain ⟨id, gm'⟩ := r
        rw [hf] at s1
        simp only [Outcome.ok.injEq, true_and] at s1
        subst s1
        simp only [Client.step] at s2
        rw [← hids] at s2
        simp only [List.getElem?_concat_length] at s2
        simp only
        cases ha : gm'.addFactor id e.2.2 with
        | ok u gm'' =>
          rw [ha] at s2
          simp only [Outcome.ok.injEq, true_and] at s2
          rw [← s2]
        | throw gm'' => rw [ha] at s2; cases s2
        | ub => rw [ha] at s2; cases s2
    rw [hadd]
    exact e1

/-! ### The energy -/

variable {gm : GM V} {p : Problem V} {A B : List Nat} {f : FactorRec} {bop : V → V → Bool} {valA valB : V} {s : Setup V}

theorem Emit.ok (hp : Pairing gm p A B) {fi : Nat} {e : Nat × Fn V × List Nat} (h : Emit p A B fi e) : EmitOk (differing A B).length e := by
  obtain ⟨t, ht, hl, _⟩ := h.term
  obtain ⟨fr, _, hm⟩ := factor_of_term hp ht
  have hrange : ∀ w ∈ t.vars, w < p.numLabels.length := by intro w hw; rw [← hp.rep.labels]; exact hm.range w hw
  have hmem : ∀ w ∈ t.vars.filter (df A B), w ∈ differing A B := by
    intro w hw
    obtain ⟨h1, h2⟩ := List.mem_filter.mp hw
    exact (df_mem hp (hrange w h1)).mp h2
  refine ⟨h.ty, ?_, ?_, h.shape⟩
  · rw [hl, List.pairwise_map]
    have hs : (t.vars.filter (df A B)).Pairwise (· < ·) := hm.sorted.filter _
    exact hs.imp_of_mem (fun ha hb hab => pos_mono (hmem _ ha) (hmem _ hb) hab)
  · rw [hl]
    intro v hv
    obtain ⟨w, h1, rfl⟩ := List.mem_map.mp hv
    exact pos_lt (hmem w h1)

theorem total_emit {o : Operation V} {fs : List Nat} {es : List (Nat × Fn V × List Nat)} (h : List.Forall₂ (Emit p A B) fs es) {y x : List Nat} (hy : Bin (differing A B).length y) (hx : Fuses A B y x) :
    fs.map (termVal o p x) = (es.map (fun e => (⟨e.2.2, e.2.1.table⟩ : Term V))).map (fun t => t.value y) := by
  induction h with
  | nil => rfl
  | cons h1 _ ih =>
    obtain ⟨t, ht, hl, hv⟩ := h1.term
    simp only [List.map_cons]
    rw [ih]
    simp only [termVal, ht, Term.value]
    rw [hv y x hy hx]
    rfl

theorem submodel_full {o : Operation V} (ho : o.IsCommMonoid) (hp : Pairing gm p A B) (h : Prepared bop gm A B valA valB s) (hne : differing A B ≠ []) :
    ∃ sub q r, fillSubModel native s = some sub ∧ BuiltModel sub q ∧ q.numLabels = List.replicate (differing A B).length 2 ∧
      (∀ y x, Bin (differing A B).length y → Fuses A B y x → p.energy o x = o.op r (q.energy o y)) ∧ ∀ t' ∈ q.terms, ∃ t ∈ p.terms, t'.vars.length ≤ t.vars.length := by
  obtain ⟨es, fs, h1, h2, h3, h4⟩ := fillSubModel_spec hp h hne
  obtain ⟨c', b', e1, e2, e3, e4⟩ := addAll_native (n := (differing A B).length) es _ _ (hist_space 3 2 (differing A B).length) rfl (by
    intro e he
    obtain ⟨i, hi, rfl⟩ := List.getElem_of_mem he
    have hlen := h1.length_eq
    exact (h1.get (i := i) (by omega) hi).ok hp)
  refine ⟨c'.gm, b'.problem, total o (((List.range p.terms.length).filter (fun f => decide (f ∉ fs))).map (termVal o p A)), ?_, e2.built, e3, ?_, ?_⟩
  · rw [h4]
    exact e1
  · intro y x hy hx
    rw [energy_split ho p x fs h2 (fun f hf => by obtain ⟨v, _, hm⟩ := (h3 f).mp hf; exact mentions_lt hm)]
    congr 1
    · congr 1
      apply List.map_congr_left
      intro f hf
      apply termVal_congr
      intro v hm
      apply hx.same
      have hnf : f ∉ fs := by simpa using (List.mem_filter.mp hf).2
      by_contra hd
      apply hnf
      rw [h3]
      refine ⟨v, mem_differing.mpr ⟨?_, hd⟩, hm⟩
      by_contra hlt
      apply hd
      rw [List.getElem?_eq_none (by omega), List.getElem?_eq_none (by rw [← hp.lenAB]; omega)]
    · rw [total_emit h1 hy hx]
      simp only [Problem.energy, Built.problem, e4, List.nil_append, total]
  · intro t' ht'
    simp only [Built.problem, e4, List.nil_append, List.mem_map] at ht'
    obtain ⟨e, he, rfl⟩ := ht'
    obtain ⟨i, hi, rfl⟩ := List.getElem_of_mem he
    have hlen := h1.length_eq
    obtain ⟨t, ht, hl, _⟩ := (h1.get (i := i) (by omega) hi).term
    simp only [List.get_eq_getElem] at hl
    refine ⟨t, List.mem_of_getElem? ht, ?_⟩
    simp only [hl, List.length_map]
    exact List.length_filter_le _ _

theorem submodel_spec {o : Operation V} (ho : o.IsCommMonoid) (hp : Pairing gm p A B) (h : Prepared bop gm A B valA valB s) (hne : differing A B ≠ []) :
    ∃ sub q r, fillSubModel native s = some sub ∧ BuiltModel sub q ∧ q.numLabels = List.replicate (differing A B).length 2 ∧
      ∀ y x, Bin (differing A B).length y → Fuses A B y x → p.energy o x = o.op r (q.energy o y) := by
  obtain ⟨sub, q, r, h1, h2, h3, h4, _⟩ := submodel_full ho hp h hne
  exact ⟨sub, q, r, h1, h2, h3, h4⟩

/-! ### Mixtures -/

theorem fuses_mixture {y x : List Nat} (hy : Bin (differing A B).length y) (hx : Fuses A B y x) : Mixture A B x := by
  refine ⟨hx.length, ?_⟩
  intro v
  by_cases hd : A[v]? = B[v]?
  · exact Or.inl (hx.same v hd)
  · by_cases hv : v < A.length
    · have hm : v ∈ differing A B := mem_differing.mpr ⟨hv, hd⟩
      have hg := get_pos hm
      have hlt : pos A B v < y.length := by rw [hy.1]; exact pos_lt hm
      have hyl := hy.2 _ (List.getElem_mem hlt)
      have hyg : y[pos A B v]? = some y[pos A B v] := List.getElem?_eq_getElem hlt
      rcases (by omega : y[pos A B v] = 0 ∨ y[pos A B v] = 1) with h0 | h1
      · rw [h0] at hyg
        exact Or.inl (hx.zero _ _ hg hyg)
      · rw [h1] at hyg
        exact Or.inr (hx.one _ _ hg hyg)
    · left
      rw [List.getElem?_eq_none (by rw [hx.length]; omega), List.getElem?_eq_none (by omega)]

theorem mixture_fuses {x : List Nat} (hx : Mixture A B x) : ∃ y, Bin (differing A B).length y ∧ Fuses A B y x := by
  refine ⟨(differing A B).map (fun v => if x[v]? = A[v]? then 0 else 1), ⟨by simp, ?_⟩, ⟨hx.1, ?_, ?_, ?_⟩⟩
  · intro l hl
    obtain ⟨v, _, rfl⟩ := List.mem_map.mp hl
    split <;> omega
  · intro v hv
    rcases hx.2 v with h | h
    · exact h
    · rw [h, hv]
  · intro i v hi hy
    simp only [List.getElem?_map, hi, Option.map_some, Option.some.injEq] at hy
    by_contra hc
    rw [if_neg hc] at hy
    omega
  · intro i v hi hy
    simp only [List.getElem?_map, hi, Option.map_some, Option.some.injEq] at hy
    rcases hx.2 v with h | h
    · rw [if_pos h] at hy
      omega
    · exact h

theorem mixture_labeling (hp : Pairing gm p A B) {x : List Nat} (hx : Mixture A B x) : p.Labeling x := by
  refine ⟨by rw [hx.1, hp.labA.1], ?_⟩
  intro v l n hl hn
  rcases hx.2 v with h | h
  · exact hp.labA.2 v l n (by rw [← h]; exact hl) hn
  · exact hp.labB.2 v l n (by rw [← h]; exact hl) hn

/-! ### The result -/

/-- The result after the first `i` local variables; `c` are the labels that the others get. -/
structure Written (A B y : List Nat) (i : Nat) (res : List Nat) : Prop where
  length : res.length = A.length
  rest : ∀ v : Nat, v ∉ (differing A B).take i → res[v]? = A[v]?
  zero : ∀ j v : Nat, j < i → (differing A B)[j]? = some v → y[j]? = some 0 → res[v]? = A[v]?
  one : ∀ j v : Nat, j < i → (differing A B)[j]? = some v → y[j]? = some 1 → res[v]? = B[v]?

theorem Written.fuses {y res : List Nat} (h : Written A B y (differing A B).length res) : Fuses A B y res := by
  refine ⟨h.length, ?_, ?_, ?_⟩
  · intro v hv
    apply h.rest
    rw [List.take_length]
    intro hm
    exact (mem_differing.mp hm).2 hv
  · intro i v hi hy
    exact h.zero i v (List.getElem?_eq_some_iff.mp hi).1 hi hy
  · intro i v hi hy
    exact h.one i v (List.getElem?_eq_some_iff.mp hi).1 hi hy

theorem Written.start (y : List Nat) : Written A B y 0 A := ⟨rfl, fun _ _ => rfl, fun _ _ h => by omega, fun _ _ h => by omega⟩

theorem Written.next {y res : List Nat} {i v l a : Nat} (h : Written A B y i res) (hv : (differing A B)[i]? = some v) (hl : y[i]? = some l) (h2 : l < 2)
    (ha : (if l = 0 then A[v]? else B[v]?) = some a) : Written A B y (i + 1) (res.set v a) := by
  have hvA : v < A.length := (mem_differing.mp (List.mem_of_getElem? hv)).1
  have hlt : i < (differing A B).length := (List.getElem?_eq_some_iff.mp hv).1
  have hDnd : (differing A B).Nodup := (differing_sorted A B).imp (fun h => Nat.ne_of_lt h)
  have hinj : ∀ j w, j < i → (differing A B)[j]? = some w → w ≠ v := by
    rintro j w hj hw rfl
    have h1 := (List.getElem?_eq_some_iff.mp hw).2
    have h3 := (List.getElem?_eq_some_iff.mp hv).2
    have := (List.Nodup.getElem_inj_iff hDnd).mp (h1.trans h3.symm)
    omega
  have hself : (res.set v a)[v]? = some a := List.getElem?_set_self (by rw [h.length]; exact hvA)
  refine ⟨by simp [h.length], ?_, ?_, ?_⟩
  · intro w hw
    rw [List.take_succ_eq_append_getElem hlt, (List.getElem?_eq_some_iff.mp hv).2, List.mem_append, not_or, List.mem_singleton] at hw
    rw [List.getElem?_set_ne (Ne.symm hw.2)]
    exact h.rest w hw.1
  · intro j w hj hw hy
    by_cases hji : j = i
    · subst hji
      rw [hv] at hw
      obtain rfl := Option.some.inj hw
      rw [hl] at hy
      obtain rfl := Option.some.inj hy
      rw [hself, ← ha, if_pos rfl]
    · rw [List.getElem?_set_ne (hinj j w (by omega) hw).symm]
      exact h.zero j w (by omega) hw hy
  · intro j w hj hw hy
    by_cases hji : j = i
    · subst hji
      rw [hv] at hw
      obtain rfl := Option.some.inj hw
      rw [hl] at hy
      obtain rfl := Option.some.inj hy
      rw [hself, ← ha, if_neg (by omega)]
    · rw [List.getElem?_set_ne (hinj j w (by omega) hw).symm]
      exact h.one j w (by omega) hw hy

theorem label_some (hp : Pairing gm p A B) {i v : Nat} (hv : (differing A B)[i]? = some v) (l : Nat) : ∃ a, (if l = 0 then A[v]? else B[v]?) = some a := by
  have hvA : v < A.length := (mem_differing.mp (List.mem_of_getElem? hv)).1
  have hvB : v < B.length := by rw [← hp.lenAB]; exact hvA
  split
  · exact ⟨_, List.getElem?_eq_getElem hvA⟩
  · exact ⟨_, List.getElem?_eq_getElem hvB⟩

theorem writeBack_spec (hp : Pairing gm p A B) {l2g : List Nat} (hmap : ∀ i v : Nat, (differing A B)[i]? = some v → l2g[i]? = some v) {y : List Nat} (hy : Bin (differing A B).length y) :
    ∀ (k i : Nat) (res : List Nat), i + k = (differing A B).length → Written A B y i res → ∃ x, writeBack l2g A B y i k res = some x ∧ Fuses A B y x
  | 0, i, res, hk, h => ⟨res, rfl, by obtain rfl : i = (differing A B).length := (by omega); exact h.fuses⟩
  | k + 1, i, res, hk, h => by
    have hlt : i < (differing A B).length := by omega
    have hv : (differing A B)[i]? = some (differing A B)[i] := List.getElem?_eq_getElem hlt
    have hyl : i < y.length := by rw [hy.1]; exact hlt
    have hl : y[i]? = some y[i] := List.getElem?_eq_getElem hyl
    obtain ⟨a, ha⟩ := label_some hp hv y[i]
    unfold writeBack
    rw [hmap _ _ hv, hl]
    simp only
    rw [ha]
    simp only
    rw [setAt_of_lt _ (by rw [h.length]; exact (mem_differing.mp (List.mem_of_getElem? hv)).1)]
    exact writeBack_spec hp hmap hy k (i + 1) _ (by omega) (h.next hv hl (hy.2 _ (List.getElem_mem hyl)) ha)

theorem takeBest_spec {o : Operation V} (hp : Pairing gm p A B) (h : Prepared bop gm A B valA valB s) {x : List Nat} (hx : p.Labeling x) :
    takeBest o bop s x = some (if bop s.valueBest (p.energy o x) then (s.valueBest, { s with argResult := s.argBest }) else (p.energy o x, { s with argResult := x })) := by
  unfold takeBest
  rw [h.model, evaluate_spec o hp.rep.toStores x hx]
  simp only
  have hb : s.argBest ++ x.drop s.argBest.length = s.argBest := by
    have : s.argBest.length = x.length := by
      rw [h.argBest, hx.1]
      split
      · exact hp.labA.1
      · exact hp.labB.1
    rw [this, List.drop_length, List.append_nil]
  rw [hb]
  split <;> rfl

theorem fuse_spec {o : Operation V} (hp : Pairing gm p A B) (h : Prepared bop gm A B valA valB s) {sub : GM V} (hs : fillSubModel native s = some sub)
    {solver : GM V → Option (List Nat) → Option (Option (List Nat))} {warm : Bool} {y : List Nat} (hy : Bin (differing A B).length y)
    (hsol : solver sub (if warm then some (List.replicate (differing A B).length s.bestLabel) else none) = some (some y)) :
    ∃ x, Fuses A B y x ∧ p.Labeling x ∧ fuse o bop solver warm s =
      some (if bop s.valueBest (p.energy o x) then (s.valueBest, { s with argResult := s.argBest }) else (p.energy o x, { s with argResult := x })) := by
  obtain ⟨x, e1, e2⟩ := writeBack_spec hp (l2g := s.localToGlobalVi) (fun i v hi => (h.maps i v hi).1) hy (differing A B).length 0 A (by omega) (Written.start y)
  have hl := mixture_labeling hp (fuses_mixture hy e2)
  refine ⟨x, e2, hl, ?_⟩
  unfold fuse
  rw [hs]
  simp only
  rw [h.count, hsol]
  simp only
  have e1' : writeBack s.localToGlobalVi s.argA s.argB y 0 (differing A B).length s.argResult = some x := by rw [h.argA, h.argB, h.argResult]; exact e1
  rw [e1']
  simp only
  exact takeBest_spec hp h hl

theorem fuse_unknown {o : Operation V} (h : Prepared bop gm A B valA valB s) {sub : GM V} (hs : fillSubModel native s = some sub)
    {solver : GM V → Option (List Nat) → Option (Option (List Nat))} {warm : Bool}
    (hsol : solver sub (if warm then some (List.replicate (differing A B).length s.bestLabel) else none) = some none) : fuse o bop solver warm s = some (s.valueBest, s) := by
  unfold fuse
  rw [hs]
  simp only
  rw [h.count, hsol]

end OpenGM.Fusion
