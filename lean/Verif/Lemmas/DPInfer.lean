import Verif.Lemmas.DPOrder
import Verif.Lemmas.DPOptimal
/-
`infer` of DynamicProgramming fills the rows of values and states.
-/
namespace OpenGM.DP
open Spec
open scoped Classical
variable {V : Type}

/-- Numbers of the variables as a function. -/
def ordOf (order : List Nat) (v : Nat) : Nat := order.getD v 0

/-- Entry of the value buffers. -/
def valOf (o : Operation V) (values : List (List V)) (c l : Nat) : V := (values.getD c []).getD l o.neutral

/-- Hypotheses on the values: a commutative monoid, a strict weak order that the operation respects, and every term value is
better than the accumulator's neutral element. -/
structure Setting (o : Operation V) (bop : V → V → Bool) (accNeutral : V) (p : Problem V) : Prop where
  comm : o.IsCommMonoid
  weak : StrictWeak bop
  reflects : Reflects o bop
  unit : bop o.neutral accNeutral = true
  op : ∀ a b, bop a accNeutral = true → bop b accNeutral = true → bop (o.op a b) accNeutral = true
  term : ∀ t ∈ p.terms, ∀ c, InShape (restrict p.numLabels t.vars) c → bop (t.table c) accNeutral = true
  pos : ∀ n ∈ p.numLabels, 0 < n

theorem messageLoop_spec {o : Operation V} {bop : V → V → Bool} (hw : StrictWeak bop) (call : Nat → Option V) (row2 : List V)
    (X : Nat → V) : ∀ (ls : List Nat) (v : V) (s : Option Nat),
    (∀ l ∈ ls, ∃ a b, call l = some a ∧ row2[l]? = some b ∧ X l = o.op a b) →
    ∃ v' s', messageLoop o bop call row2 ls v s = some (v', s') ∧
      ((v' = v ∧ s' = s ∧ ∀ l ∈ ls, bop (X l) v = false) ∨
       ∃ l ∈ ls, s' = some l ∧ v' = X l ∧ bop v' v = true ∧ ∀ l' ∈ ls, bop (X l') v' = false) := by
  intro ls
  induction ls with
  | nil => intro v s _; exact ⟨v, s, rfl, Or.inl ⟨rfl, rfl, by simp⟩⟩
  | cons l ls ih =>
    intro v s h
    obtain ⟨a, b, h1, h2, h3⟩ := h l (by simp)
    unfold messageLoop
    rw [h1, h2]
    simp only
    rw [← h3]
    cases c : bop (X l) v with
    | true =>
      simp only [if_true]
      obtain ⟨v', s', e1, e2⟩ := ih (X l) (some l) (fun l' hl' => h l' (by simp [hl']))
      refine ⟨v', s', e1, Or.inr ?_⟩
      rcases e2 with ⟨rfl, rfl, e3⟩ | ⟨l', hl', rfl, rfl, e3, e4⟩
      · refine ⟨l, by simp, rfl, rfl, c, ?_⟩
        intro l' hl'
        rcases List.mem_cons.mp hl' with rfl | hl'
        · exact hw.irrefl _
        · exact e3 l' hl'
      · refine ⟨l', by simp [hl'], rfl, rfl, hw.trans _ _ _ e3 c, ?_⟩
        intro l'' hl''
        rcases List.mem_cons.mp hl'' with rfl | hl''
        · exact hw.asymm e3
        · exact e4 l'' hl''
    | false =>
      simp only [Bool.false_eq_true, if_false]
      obtain ⟨v', s', e1, e2⟩ := ih v s (fun l' hl' => h l' (by simp [hl']))
      refine ⟨v', s', e1, ?_⟩
      rcases e2 with ⟨rfl, rfl, e3⟩ | ⟨l', hl', rfl, rfl, e3, e4⟩
      · left
        refine ⟨rfl, rfl, ?_⟩
        intro l' hl'
        rcases List.mem_cons.mp hl' with rfl | hl'
        · exact c
        · exact e3 l' hl'
      · right
        refine ⟨l', by simp [hl'], rfl, rfl, e3, ?_⟩
        intro l'' hl''
        rcases List.mem_cons.mp hl'' with rfl | hl''
        · cases hb : bop (X l'') (X l') with
          | false => rfl
          | true => rw [hw.trans _ _ _ hb e3] at c; cases c
        · exact e4 l'' hl''

theorem pairLoop_spec {o : Operation V} {bop : V → V → Bool} (hw : StrictWeak bop) (accNeutral : V) (call : Nat → Nat → Option V)
    (row2 : List V) (L n2 k : Nat) (hn2 : 0 < n2) (X : Nat → Nat → V) :
    ∀ (ls : List Nat) (s : Option Nat) (row : List V) (srow : List (Option Nat)), (∀ l ∈ ls, l < L) → ls.Nodup →
    (∀ l ∈ ls, ∀ s, s < n2 → ∃ a b, call l s = some a ∧ row2[s]? = some b ∧ X l s = o.op a b) →
    (∀ l ∈ ls, ∀ s, s < n2 → bop (X l s) accNeutral = true) → row.length = L → k * L + L ≤ srow.length →
    ∃ (row' : List V) (srow' : List (Option Nat)) (st : Nat → Nat), pairLoop o bop accNeutral call row2 L n2 k ls s row srow = some (row', srow') ∧ row'.length = L ∧
      srow'.length = srow.length ∧
      (∀ l ∈ ls, st l < n2 ∧ (∀ s, s < n2 → bop (X l s) (X l (st l)) = false) ∧
        (∀ r, row[l]? = some r → row'[l]? = some (o.op r (X l (st l)))) ∧ srow'[k * L + l]? = some (some (st l))) ∧
      (∀ l : Nat, l ∉ ls → row'[l]? = row[l]?) ∧
      (∀ j : Nat, (∀ l ∈ ls, j ≠ k * L + l) → srow'[j]? = srow[j]?) := by
  intro ls
  induction ls with
  | nil => intro s row srow _ _ _ _ hr hs; exact ⟨row, srow, fun _ => 0, rfl, hr, rfl, by simp, by simp, by simp⟩
  | cons l ls ih =>
    intro s row srow hl hnd hcall hgood hr hs
    have hlL : l < L := hl l (by simp)
    rw [List.nodup_cons] at hnd
    obtain ⟨v', s', e1, e2⟩ := messageLoop_spec hw (call l) row2 (X l) (List.range n2) accNeutral s
      (fun l2 h2 => hcall l (by simp) l2 (List.mem_range.mp h2))
    rcases e2 with ⟨rfl, _, e3⟩ | ⟨m, hm, rfl, rfl, _, e4⟩
    · have := e3 0 (List.mem_range.mpr hn2)
      rw [hgood l (by simp) 0 hn2] at this
      cases this
    · have hm' := List.mem_range.mp hm
      have hlr : l < row.length := by omega
      obtain ⟨row', srow', st, g1, g2, g3, g4, g5, g6⟩ := ih (some m) (row.set l (o.op row[l] (X l m)))
        (srow.set (k * L + l) (some m)) (fun l' h' => hl l' (by simp [h'])) hnd.2
        (fun l' h' => hcall l' (by simp [h'])) (fun l' h' => hgood l' (by simp [h'])) (by simpa using hr) (by simpa using hs)
      have hne : ∀ l' ∈ ls, l' ≠ l := by rintro l' h' rfl; exact hnd.1 h'
      refine ⟨row', srow', fun l' => if l' = l then m else st l', ?_, g2, by simpa using g3, ?_, ?_, ?_⟩
      · unfold pairLoop
        rw [e1]
        simp only
        rw [setAt_of_lt _ (by omega), List.getElem?_eq_getElem hlr]
        exact g1
      · intro l' h'
        rcases List.mem_cons.mp h' with rfl | h'
        · simp only [if_true]
          refine ⟨hm', fun s hs' => e4 s (List.mem_range.mpr hs'), ?_, ?_⟩
          · intro r hrr
            rw [g5 l' hnd.1, List.getElem?_set_self hlr]
            rw [List.getElem?_eq_getElem hlr] at hrr
            cases hrr; rfl
          · rw [g6 _ (fun l'' h'' => by have := hne l'' h''; omega), List.getElem?_set_self (by omega)]
        · have hn := hne l' h'
          simp only [if_neg hn]
          obtain ⟨q1, q2, q3, q4⟩ := g4 l' h'
          refine ⟨q1, q2, ?_, q4⟩
          intro r hrr
          apply q3
          rw [List.getElem?_set_ne (Ne.symm hn)]; exact hrr
      · intro l' h'
        simp only [List.mem_cons, not_or] at h'
        rw [g5 l' h'.2, List.getElem?_set_ne (Ne.symm h'.1)]
      · intro j hj
        rw [g6 j (fun l' h' => hj l' (by simp [h'])), List.getElem?_set_ne (Ne.symm (hj l (by simp)))]

theorem unaryLoop_spec (o : Operation V) (call : Nat → Option V) (X : Nat → V) (L : Nat) : ∀ (ls : List Nat) (row : List V),
    (∀ l ∈ ls, l < L ∧ call l = some (X l)) → ls.Nodup → row.length = L →
    ∃ row', unaryLoop o call ls row = some row' ∧ row'.length = L ∧
      (∀ l ∈ ls, ∀ r, row[l]? = some r → row'[l]? = some (o.op r (X l))) ∧ (∀ l : Nat, l ∉ ls → row'[l]? = row[l]?) := by
  intro ls
  induction ls with
  | nil => intro row _ _ hr; exact ⟨row, rfl, hr, by simp, by simp⟩
  | cons l ls ih =>
    intro row hl hnd hr
    obtain ⟨h1, h2⟩ := hl l (by simp)
    rw [List.nodup_cons] at hnd
    have hlr : l < row.length := by omega
    obtain ⟨row', g1, g2, g3, g4⟩ := ih (row.set l (o.op row[l] (X l))) (fun l' h' => hl l' (by simp [h'])) hnd.2 (by simpa using hr)
    refine ⟨row', ?_, g2, ?_, ?_⟩
    · unfold unaryLoop
      rw [h2, List.getElem?_eq_getElem hlr]
      exact g1
    · intro l' h' r hrr
      rcases List.mem_cons.mp h' with rfl | h3
      · rw [g4 l' hnd.1, List.getElem?_set_self hlr]
        rw [List.getElem?_eq_getElem hlr] at hrr
        cases hrr; rfl
      · have hn : l' ≠ l := by rintro rfl; exact hnd.1 h3
        exact g3 l' h3 r (by rw [List.getElem?_set_ne (Ne.symm hn)]; exact hrr)
    · intro l' h'
      simp only [List.mem_cons, not_or] at h'
      rw [g4 l' h'.2, List.getElem?_set_ne (Ne.symm h'.1)]

/-! ### The terms of a node -/

variable {gm : GM V} {p : Problem V}

theorem callFactor_at (hr : Stores gm p) {fr : FactorRec} {t : Term V} (hm : FactorMatches gm fr t) {c : List Nat}
    (hc : InShape (restrict p.numLabels t.vars) c) (hne : t.vars ≠ []) : gm.callFactor fr c = some (t.table c) := by
  obtain ⟨fn, h1, h2, h3⟩ := hm.fn
  have hin : InShape fn.shape c := by rw [h2, hr.labels]; exact hc
  unfold GM.callFactor
  rw [h1]
  simp only [callFn]
  rw [← h3 _ hin]
  cases hsh : fn.shape with
  | nil =>
    rw [hsh] at h2
    exact absurd (List.map_eq_nil_iff.mp h2.symm) hne
  | cons n sh =>
    simp only [← hsh]
    have := inShape_of_InShape fn.shape c [] hin
    rw [List.append_nil] at this
    rw [this, if_pos rfl, ← InShape_length _ _ hin, List.take_length]

/-- Factors of `v` that lead to a child. -/
noncomputable def childFactors (p : Problem V) (ord : Nat → Nat) (v : Nat) : List Nat :=
  (List.range p.terms.length).filter (fun f => (childVia p ord v f).isSome)

theorem Numbering.forest {order nodes : List Nat} (h : Numbering p order nodes) (hr : Represents gm p)
    (h2 : ∀ t ∈ p.terms, t.vars.length ≤ 2) : Forest p (ordOf order) := by
  have get : ∀ v, v < p.numLabels.length → order[v]? = some (ordOf order v) := by
    intro v hv
    have : v < order.length := by rw [h.len]; exact hv
    simp [ordOf, List.getD_eq_getElem?_getD, List.getElem?_eq_getElem this]
  have inr : ∀ t ∈ p.terms, ∃ fr, FactorMatches gm fr t := by
    intro t ht
    obtain ⟨i, hi, rfl⟩ := List.getElem_of_mem ht
    obtain ⟨fr, _, h⟩ := factor_at hr.toStores (List.getElem?_eq_getElem hi)
    exact ⟨fr, h⟩
  refine ⟨?_, ?_, ?_, ?_, h2, ?_, ?_⟩
  · intro v w hv hw e
    have h1 := (h.at_ _ _).mp (get v hv)
    have h2 := (h.at_ _ _).mp (get w hw)
    rw [e, h2] at h1
    cases h1; rfl
  · intro v hv
    have := (h.at_ _ _).mp (get v hv)
    rw [← h.lenN]
    exact (List.getElem?_eq_some_iff.mp this).1
  · intro t ht
    have ht' : t < nodes.length := by rw [h.lenN]; exact ht
    have := (h.at_ _ _).mpr (List.getElem?_eq_getElem ht')
    have hv : nodes[t] < p.numLabels.length := by rw [← h.len]; exact (List.getElem?_eq_some_iff.mp this).1
    refine ⟨nodes[t], hv, ?_⟩
    rw [get _ hv] at this
    injection this
  · intro c f u f' u' hf hf' hlt hlt'
    exact h.uniq c f u f' u' _ _ _ hf hf' (get c (hf.range hr).2.1) (get u (hf.range hr).1) (get u' (hf'.range hr).1) hlt hlt'
  · intro t ht v hv
    obtain ⟨fr, hm⟩ := inr t ht
    have := hm.range v hv
    rw [hr.labels] at this
    exact this
  · intro t ht
    obtain ⟨fr, hm⟩ := inr t ht
    exact hm.sorted

section node
variable {ord : Nat → Nat} {o : Operation V} {bop : V → V → Bool} {accNeutral : V}

/-- What `infer` has achieved for `v`. -/
structure NodeDone (o : Operation V) (bop : V → V → Bool) (accNeutral : V) (p : Problem V) (ord : Nat → Nat) (values : List (List V))
    (states : List (List (Option Nat))) (v : Nat) (msg : Nat → Nat → V) (st : Nat → Nat → Nat) : Prop where
  rows : Rows o bop p ord (valOf o values) msg st v
  len : (values.getD v []).length = p.numLabels.getD v 0
  good : ∀ l, l < p.numLabels.getD v 0 → bop (valOf o values v l) accNeutral = true
  states : ∀ k f l : Nat, (childFactors p ord v)[k]? = some f → l < p.numLabels.getD v 0 →
    (states.getD v [])[k * p.numLabels.getD v 0 + l]? = some (some (st f l))

/-- Working state after the factors in `done`. -/
structure WorkInv (o : Operation V) (bop : V → V → Bool) (p : Problem V) (ord : Nat → Nat) (values : List (List V)) (v : Nat)
    (done : List Nat) (w : Work V) (msg : Nat → Nat → V) (st : Nat → Nat → Nat) : Prop where
  lenR : w.row.length = p.numLabels.getD v 0
  lenS : w.srow.length = p.numLabels.getD v 0 * (childFactors p ord v).length
  counter : w.counter = (done.filter (fun f => (childVia p ord v f).isSome)).length
  row : ∀ l, l < p.numLabels.getD v 0 → w.row[l]? = some (total o ((done.filter (owns p ord v)).map (fun f => msg f l)))
  unary : ∀ f l, f ∈ done → unaryAt p v f = true → l < p.numLabels.getD v 0 → msg f l = unaryVal o p f l
  best : ∀ f c l, f ∈ done → childVia p ord v f = some c → l < p.numLabels.getD v 0 →
    st f l < p.numLabels.getD c 0 ∧ msg f l = o.op (pairVal o p f v l (st f l)) (valOf o values c (st f l)) ∧
    ∀ s, s < p.numLabels.getD c 0 → bop (o.op (pairVal o p f v l s) (valOf o values c s)) (msg f l) = false
  states : ∀ k f l : Nat, (done.filter (fun f => (childVia p ord v f).isSome))[k]? = some f → l < p.numLabels.getD v 0 →
    w.srow[k * p.numLabels.getD v 0 + l]? = some (some (st f l))

theorem total_snoc (l : List V) (a : V) : total o (l ++ [a]) = o.op (total o l) a := by simp [total]

theorem pairVal_eq {f v c : Nat} {t : Term V} (ht : p.terms[f]? = some t) (l lc : Nat) :
    (t.vars = [v, c] → pairVal o p f v l lc = t.table [l, lc]) ∧
    (v ≠ c → t.vars = [c, v] → pairVal o p f v l lc = t.table [lc, l]) := by
  constructor
  · intro h; simp [pairVal, ht, h]
  · intro hne h; simp [pairVal, ht, h, Ne.symm hne]

theorem getD_some {l : List Nat} {v : Nat} (h : v < l.length) : l[v]? = some (l.getD v 0) := by
  simp [List.getD_eq_getElem?_getD, List.getElem?_eq_getElem h]

theorem message_spec (hset : Setting o bop accNeutral p) (hr : Represents gm p) (hf : Forest p ord) {values : List (List V)}
    {v f c : Nat} (hc : childVia p ord v f = some c) (hclen : (values.getD c []).length = p.numLabels.getD c 0)
    (hcv : c < values.length)
    (hcgood : ∀ l, l < p.numLabels.getD c 0 → bop (valOf o values c l) accNeutral = true) (call : Nat → Nat → Option V)
    (hcall : ∀ l s, l < p.numLabels.getD v 0 → s < p.numLabels.getD c 0 → call l s = some (pairVal o p f v l s) ∧
      bop (pairVal o p f v l s) accNeutral = true)
    {done : List Nat} {w : Work V} {msg : Nat → Nat → V} {st : Nat → Nat → Nat} (hnd : f ∉ done)
    (hk : (done.filter (fun f => (childVia p ord v f).isSome)).length < (childFactors p ord v).length)
    (hw : WorkInv o bop p ord values v done w msg st) :
    ∃ w' msg' st', message o bop accNeutral gm values (p.numLabels.getD v 0) c call w = some w' ∧
      WorkInv o bop p ord values v (done ++ [f]) w' msg' st' := by
  have hcr := childVia_range hf hc
  have hn2 : 0 < p.numLabels.getD c 0 := hset.pos _ (List.mem_of_getElem? (getD_some hcr))
  have hrow2 : values[c]? = some (values.getD c []) := by
    simp [List.getD_eq_getElem?_getD, List.getElem?_eq_getElem hcv]
  have hget : ∀ s, s < p.numLabels.getD c 0 → (values.getD c [])[s]? = some (valOf o values c s) := by
    intro s hs
    have : s < (values.getD c []).length := by omega
    rw [valOf, List.getD_eq_getElem?_getD (l := values.getD c []), List.getElem?_eq_getElem this]; rfl
  obtain ⟨row', srow', sn, e1, e2, e3, e4, e5, e6⟩ := pairLoop_spec (o := o) hset.weak accNeutral call (values.getD c [])
    (p.numLabels.getD v 0) (p.numLabels.getD c 0) w.counter hn2
    (fun l s => o.op (pairVal o p f v l s) (valOf o values c s)) (List.range (p.numLabels.getD v 0)) none w.row w.srow
    (fun l h => List.mem_range.mp h) List.nodup_range
    (fun l hl s hs => ⟨_, _, (hcall l s (List.mem_range.mp hl) hs).1, hget s hs, rfl⟩)
    (fun l hl s hs => hset.op _ _ (hcall l s (List.mem_range.mp hl) hs).2 (hcgood s hs)) hw.lenR
    (by
      rw [hw.lenS, hw.counter, ← Nat.succ_mul, Nat.mul_comm (p.numLabels.getD v 0)]
      exact Nat.mul_le_mul_right _ hk)
  have hown : owns p ord v f = true := by simp [owns, hc]
  have hco : (childVia p ord v f).isSome = true := by simp [hc]
  have hun : unaryAt p v f = false := by
    obtain ⟨⟨t, ht, h1⟩, _⟩ := (childVia_eq_some hf.sorted).mp hc
    unfold unaryAt
    rw [ht]
    rcases h1 with h1 | h1 <;> simp [h1]
  refine ⟨⟨row', srow', w.counter + 1⟩,
    fun g l => if g = f then o.op (pairVal o p f v l (sn l)) (valOf o values c (sn l)) else msg g l,
    fun g l => if g = f then sn l else st g l, ?_, ⟨e2, ?_, ?_, ?_, ?_, ?_, ?_⟩⟩
  · unfold message
    rw [hr.labels, getD_some hcr, hrow2]
    simp only
    rw [e1]
  · simp only; rw [e3, hw.lenS]
  · simp only
    rw [hw.counter, List.filter_append]
    simp [hc]
  · intro l hl
    simp only
    rw [List.filter_append, List.filter_cons_of_pos hown, List.filter_nil, List.map_append, List.map_cons, List.map_nil, total_snoc]
    rw [(e4 l (List.mem_range.mpr hl)).2.2.1 _ (hw.row l hl)]
    simp only [if_true]
    congr 3
    apply List.map_congr_left
    intro g hg
    have : g ≠ f := by rintro rfl; exact hnd (List.mem_filter.mp hg).1
    rw [if_neg this]
  · intro g l hg hu hl
    rcases List.mem_append.mp hg with hg2 | hg
    · have : g ≠ f := by rintro rfl; exact hnd hg2
      simp only [if_neg this]
      exact hw.unary g l hg2 hu hl
    · simp only [List.mem_singleton] at hg; subst hg
      rw [hun] at hu; cases hu
  · intro g c' l hg hc' hl
    rcases List.mem_append.mp hg with hg2 | hg
    · have : g ≠ f := by rintro rfl; exact hnd hg2
      simp only [if_neg this]
      exact hw.best g c' l hg2 hc' hl
    · simp only [List.mem_singleton] at hg; subst hg
      rw [hc] at hc'
      cases hc'
      obtain ⟨q1, q2, _, _⟩ := e4 l (List.mem_range.mpr hl)
      simp only [if_true]
      exact ⟨q1, trivial, fun s hs => q2 s hs⟩
  · intro k g l hk' hl
    simp only at hk' ⊢
    have hf1 : (done ++ [f]).filter (fun f => (childVia p ord v f).isSome) =
        done.filter (fun f => (childVia p ord v f).isSome) ++ [f] := by
      rw [List.filter_append]; simp [hc]
    rw [hf1, List.getElem?_append] at hk'
    split at hk'
    · next hlt =>
      have hgm := List.mem_of_getElem? hk'
      have : g ≠ f := by rintro rfl; exact hnd (List.mem_filter.mp hgm).1
      rw [if_neg this]
      have hold := hw.states k g l hk' hl
      rw [e6]
      · exact hold
      · intro l' hl'
        have hl'' := List.mem_range.mp hl'
        rw [hw.counter]
        intro heq
        -- different blocks
        have : k * p.numLabels.getD v 0 + p.numLabels.getD v 0 ≤
            (done.filter (fun f => (childVia p ord v f).isSome)).length * p.numLabels.getD v 0 := by
          rw [← Nat.succ_mul]; exact Nat.mul_le_mul_right _ hlt
        omega
    · next hge =>
      rw [List.getElem?_singleton] at hk'
      split at hk'
      · next hz =>
        cases hk'
        have hkc : k = w.counter := by rw [hw.counter]; omega
        subst hkc
        rw [if_pos rfl]
        exact (e4 l (List.mem_range.mpr hl)).2.2.2
      · cases hk'

theorem isChild_spec (order : List Nat) {v c : Nat} (hv : v < order.length) (hc : c < order.length) (self : Nat) :
    isChild order v c self = some (decide (self = v ∧ ordOf order v < ordOf order c)) := by
  unfold isChild
  by_cases h : self = v
  · rw [if_pos h, getD_some hv, getD_some hc]
    simp [h, ordOf]
  · rw [if_neg h]; simp [h]

theorem WorkInv.skip {values : List (List V)} {v f : Nat} {done : List Nat} {w : Work V} {msg : Nat → Nat → V} {st : Nat → Nat → Nat}
    (hw : WorkInv o bop p ord values v done w msg st) (h1 : owns p ord v f = false) :
    WorkInv o bop p ord values v (done ++ [f]) w msg st := by
  have hu : unaryAt p v f = false := by simp [owns] at h1; exact h1.1
  have hc : childVia p ord v f = none := by simp [owns] at h1; exact h1.2
  have hf1 : (done ++ [f]).filter (fun f => (childVia p ord v f).isSome) = done.filter (fun f => (childVia p ord v f).isSome) := by
    rw [List.filter_append]; simp [hc]
  have hf2 : (done ++ [f]).filter (owns p ord v) = done.filter (owns p ord v) := by
    rw [List.filter_append]; simp [h1]
  refine ⟨hw.lenR, hw.lenS, by rw [hf1]; exact hw.counter, ?_, ?_, ?_, ?_⟩
  · intro l hl; rw [hf2]; exact hw.row l hl
  · intro g l hg hug hl
    rcases List.mem_append.mp hg with hg | hg
    · exact hw.unary g l hg hug hl
    · simp only [List.mem_singleton] at hg; subst hg; rw [hu] at hug; cases hug
  · intro g c l hg hcg hl
    rcases List.mem_append.mp hg with hg | hg
    · exact hw.best g c l hg hcg hl
    · simp only [List.mem_singleton] at hg; subst hg; rw [hc] at hcg; cases hcg
  · intro k g l hk hl
    rw [hf1] at hk
    exact hw.states k g l hk hl

/-- One factor of `v`. -/
theorem factorStep_spec (hset : Setting o bop accNeutral p) (hr : Represents gm p) {d : Solver V}
    (hlenO : d.order.length = p.numLabels.length) (hf : Forest p (ordOf d.order))
    (hlenV : d.values.length = p.numLabels.length) {v f : Nat} (hv : v < p.numLabels.length)
    (hment : mentions p.terms v f = true)
    (hkids : ∀ c, childVia p (ordOf d.order) v f = some c → (d.values.getD c []).length = p.numLabels.getD c 0 ∧
      ∀ l, l < p.numLabels.getD c 0 → bop (valOf o d.values c l) accNeutral = true)
    {done : List Nat} {w : Work V} {msg : Nat → Nat → V} {st : Nat → Nat → Nat} (hnd : f ∉ done)
    (hk : (childVia p (ordOf d.order) v f).isSome = true →
      (done.filter (fun f => (childVia p (ordOf d.order) v f).isSome)).length < (childFactors p (ordOf d.order) v).length)
    (hw : WorkInv o bop p (ordOf d.order) d.values v done w msg st) :
    ∃ w' msg' st', factorStep o bop accNeutral gm d v (p.numLabels.getD v 0) f w = .ok () w' ∧
      WorkInv o bop p (ordOf d.order) d.values v (done ++ [f]) w' msg' st' := by
  obtain ⟨t, ht, hmem, fr, hfr, hm⟩ := mentions_cases hr hment
  have htm := List.mem_of_getElem? ht
  have hlen := hf.two t htm
  have hsort := hf.sorted t htm
  have hrg := hf.range t htm
  unfold factorStep
  rw [hfr]
  simp only
  rw [hm.visSize]
  match hvs : t.vars, hlen with
  | [], _ => rw [hvs] at hmem; simp at hmem
  | [a], _ =>
    rw [hvs] at hmem
    simp only [List.mem_singleton] at hmem
    subst hmem
    simp only [List.length_singleton, if_true]
    have hin : ∀ l, l < p.numLabels.getD v 0 → InShape (restrict p.numLabels t.vars) [l] := by
      intro l hl; rw [hvs]; simpa [restrict, InShape] using hl
    obtain ⟨row', g1, g2, g3, g4⟩ := unaryLoop_spec o (fun l => gm.callFactor fr [l]) (fun l => t.table [l])
      (p.numLabels.getD v 0) (List.range (p.numLabels.getD v 0)) w.row
      (fun l hl => ⟨List.mem_range.mp hl, callFactor_at hr.toStores hm (hin l (List.mem_range.mp hl)) (by simp [hvs])⟩)
      List.nodup_range hw.lenR
    rw [g1]
    have hu : unaryAt p v f = true := by simp [unaryAt, ht, hvs]
    have hc : childVia p (ordOf d.order) v f = none := by simp [childVia, ht, hvs]
    have hown : owns p (ordOf d.order) v f = true := by simp [owns, hu]
    have hf1 : (done ++ [f]).filter (fun f => (childVia p (ordOf d.order) v f).isSome) =
        done.filter (fun f => (childVia p (ordOf d.order) v f).isSome) := by
      rw [List.filter_append]; simp [hc]
    refine ⟨_, fun g l => if g = f then t.table [l] else msg g l, st, rfl, ⟨g2, hw.lenS, by rw [hf1]; exact hw.counter, ?_, ?_, ?_, ?_⟩⟩
    · intro l hl
      simp only
      rw [List.filter_append, List.filter_cons_of_pos hown, List.filter_nil, List.map_append, List.map_cons, List.map_nil, total_snoc]
      rw [g3 l (List.mem_range.mpr hl) _ (hw.row l hl)]
      simp only [if_true]
      congr 3
      apply List.map_congr_left
      intro g hg
      have : g ≠ f := by rintro rfl; exact hnd (List.mem_filter.mp hg).1
      rw [if_neg this]
    · intro g l hg hug hl
      rcases List.mem_append.mp hg with hg2 | hg
      · have : g ≠ f := by rintro rfl; exact hnd hg2
        simp only [if_neg this]
        exact hw.unary g l hg2 hug hl
      · simp only [List.mem_singleton] at hg; subst hg
        simp only [if_true]
        simp [unaryVal, ht]
    · intro g c l hg hcg hl
      rcases List.mem_append.mp hg with hg2 | hg
      · have : g ≠ f := by rintro rfl; exact hnd hg2
        simp only [if_neg this]
        exact hw.best g c l hg2 hcg hl
      · simp only [List.mem_singleton] at hg; subst hg; rw [hc] at hcg; cases hcg
    · intro k g l hk' hl
      rw [hf1] at hk'
      exact hw.states k g l hk' hl
  | [a, b], _ =>
    rw [hvs] at hmem hsort hrg
    simp only [List.pairwise_cons, List.mem_singleton, forall_eq] at hsort
    have hab : a < b := hsort.1
    have har : a < p.numLabels.length := hrg a (by simp)
    have hbr : b < p.numLabels.length := hrg b (by simp)
    simp only [List.length_cons, List.length_nil]
    rw [if_neg (show ¬ (0 + 1 + 1 = 1) by omega), if_pos trivial]
    have e0 : gm.visAt fr 0 = some a := by rw [hm.visAt 0 (by rw [hm.visSize, hvs]; simp), hvs]; rfl
    have e1 : gm.visAt fr 1 = some b := by rw [hm.visAt 1 (by rw [hm.visSize, hvs]; simp), hvs]; rfl
    rw [e0, e1]
    simp only
    unfold pairStep
    have i1 := isChild_spec d.order (v := v) (c := b) (by omega) (by omega) a
    have i2 := isChild_spec d.order (v := v) (c := a) (by omega) (by omega) b
    rw [i1, i2]
    have hin : ∀ l s, l < p.numLabels.getD a 0 → s < p.numLabels.getD b 0 → InShape (restrict p.numLabels t.vars) [l, s] := by
      intro l s hl hs; rw [hvs]; simp only [restrict, List.map_cons, List.map_nil, InShape]; exact ⟨hl, hs, trivial⟩
    have hcv : childVia p (ordOf d.order) v f =
        if a = v ∧ ordOf d.order v < ordOf d.order b then some b
        else if b = v ∧ ordOf d.order v < ordOf d.order a then some a else none := by
      simp [childVia, ht, hvs]
    simp only
    by_cases c1 : a = v ∧ ordOf d.order v < ordOf d.order b
    · obtain ⟨rfl, c1'⟩ := c1
      have hc : childVia p (ordOf d.order) a f = some b := by rw [hcv, if_pos ⟨rfl, c1'⟩]
      obtain ⟨hcl, hcg⟩ := hkids b hc
      obtain ⟨w', msg', st', m1, m2⟩ := message_spec hset hr hf hc hcl (by omega) hcg
        (fun l l2 => gm.callFactor fr [l, l2])
        (fun l s hl hs => by
          have hcf := callFactor_at hr.toStores hm (hin l s hl hs) (by simp [hvs])
          have hpv := (pairVal_eq (o := o) (v := a) (c := b) ht l s).1 hvs
          rw [hpv]
          exact ⟨hcf, hset.term t htm _ (hin l s hl hs)⟩) hnd (hk (by simp [hc])) hw
      refine ⟨w', msg', st', ?_, m2⟩
      simp only [true_and, c1', decide_true, if_true]
      rw [m1]
      simp [show ¬ b = a by omega]
    · simp only [c1, decide_false, Bool.false_eq_true, if_false]
      by_cases c2 : b = v ∧ ordOf d.order v < ordOf d.order a
      · obtain ⟨rfl, c2'⟩ := c2
        have hc : childVia p (ordOf d.order) b f = some a := by
          rw [hcv, if_neg c1, if_pos ⟨rfl, c2'⟩]
        obtain ⟨hcl, hcg⟩ := hkids a hc
        obtain ⟨w', msg', st', m1, m2⟩ := message_spec hset hr hf hc hcl (by omega) hcg
          (fun l l2 => gm.callFactor fr [l2, l])
          (fun l s hl hs => by
            have hcf := callFactor_at hr.toStores hm (hin s l hs hl) (by simp [hvs])
            have hpv := (pairVal_eq (o := o) (v := b) (c := a) ht l s).2 (by omega) hvs
            rw [hpv]
            exact ⟨hcf, hset.term t htm _ (hin s l hs hl)⟩) hnd (hk (by simp [hc])) hw
        refine ⟨w', msg', st', ?_, m2⟩
        simp only [true_and, c2', decide_true, if_true]
        rw [m1]
      · simp only [c2, decide_false, Bool.false_eq_true, if_false]
        refine ⟨w, msg, st, rfl, hw.skip ?_⟩
        have hu : unaryAt p v f = false := by simp [unaryAt, ht, hvs]
        have hc : childVia p (ordOf d.order) v f = none := by rw [hcv, if_neg c1, if_neg c2]
        simp [owns, hu, hc]

theorem filter_getElem_lt {l done rest : List Nat} (P : Nat → Bool) {f : Nat} (h : l = done ++ f :: rest) (hP : P f = true) :
    (done.filter P).length < (l.filter P).length := by
  rw [h, List.filter_append, List.filter_cons_of_pos hP]
  simp

theorem childFactors_eq (v : Nat) : childFactors p ord v =
    ((List.range p.terms.length).filter (mentions p.terms v)).filter (fun f => (childVia p ord v f).isSome) := by
  unfold childFactors
  rw [List.filter_filter]
  apply List.filter_congr
  intro f _
  cases h : childVia p ord v f with
  | none => simp
  | some c =>
    simp only [Option.isSome_some, Bool.true_and]
    unfold childVia at h
    cases ht : p.terms[f]? with
    | none => rw [ht] at h; cases h
    | some t =>
      rw [ht] at h
      simp only at h
      unfold mentions
      rw [ht]
      simp only
      split at h
      · next a b hv =>
        rw [hv]
        split at h
        · next hc => simp [hc.1]
        · split at h
          · next hc => simp [hc.1]
          · cases h
      · cases h

theorem termsOf_eq (v : Nat) : termsOf p ord v =
    ((List.range p.terms.length).filter (mentions p.terms v)).filter (owns p ord v) := by
  unfold termsOf
  rw [List.filter_filter]
  apply List.filter_congr
  intro f hf
  cases h : owns p ord v f with
  | false => simp
  | true =>
    simp only [Bool.true_and]
    simp only [owns, Bool.or_eq_true] at h
    rcases h with h | h
    · unfold unaryAt at h
      unfold mentions
      cases ht : p.terms[f]? with
      | none => rw [ht] at h; cases h
      | some t => rw [ht] at h; simp at h; simp [h]
    · have hm : f ∈ childFactors p ord v := List.mem_filter.mpr ⟨hf, h⟩
      rw [childFactors_eq] at hm
      exact (List.mem_filter.mp (List.mem_filter.mp hm).1).2.symm

theorem factorLoop_spec (hset : Setting o bop accNeutral p) (hr : Represents gm p) {d : Solver V}
    (hlenO : d.order.length = p.numLabels.length) (hf : Forest p (ordOf d.order))
    (hlenV : d.values.length = p.numLabels.length) {v : Nat} (hv : v < p.numLabels.length)
    (hkids : ∀ f c, childVia p (ordOf d.order) v f = some c → (d.values.getD c []).length = p.numLabels.getD c 0 ∧
      ∀ l, l < p.numLabels.getD c 0 → bop (valOf o d.values c l) accNeutral = true) :
    ∀ (fs done : List Nat) (w : Work V) (msg : Nat → Nat → V) (st : Nat → Nat → Nat),
      (List.range p.terms.length).filter (mentions p.terms v) = done ++ fs →
      WorkInv o bop p (ordOf d.order) d.values v done w msg st →
      ∃ w' msg' st', factorLoop o bop accNeutral gm d v (p.numLabels.getD v 0) fs w = .ok () w' ∧
        WorkInv o bop p (ordOf d.order) d.values v ((List.range p.terms.length).filter (mentions p.terms v)) w' msg' st' := by
  intro fs
  induction fs with
  | nil =>
    intro done w msg st hsp hw
    rw [List.append_nil] at hsp
    rw [hsp]
    exact ⟨w, msg, st, rfl, hw⟩
  | cons f fs ih =>
    intro done w msg st hsp hw
    have hmf : f ∈ (List.range p.terms.length).filter (mentions p.terms v) := by rw [hsp]; simp
    have hnod : (done ++ f :: fs).Nodup := by rw [← hsp]; exact List.nodup_range.filter _
    have hnd : f ∉ done := by
      intro hd
      rw [List.nodup_append] at hnod
      exact hnod.2.2 f hd f (by simp) rfl
    obtain ⟨w', msg', st', e1, e2⟩ := factorStep_spec hset hr hlenO hf hlenV hv (List.mem_filter.mp hmf).2 (hkids f) hnd
      (fun hc => by rw [childFactors_eq]; exact filter_getElem_lt _ hsp hc) hw
    unfold factorLoop
    rw [e1]
    exact ih (done ++ [f]) w' msg' st' (by rw [hsp]; simp) e2

theorem total_good (hset : Setting o bop accNeutral p) (l : List V) (h : ∀ a ∈ l, bop a accNeutral = true) :
    bop (total o l) accNeutral = true := by
  induction l with
  | nil => exact hset.unit
  | cons a l ih =>
    rw [total_cons hset.comm]
    exact hset.op _ _ (h a (by simp)) (ih (fun b hb => h b (by simp [hb])))

/-- What is always true of the object. -/
structure Shape (p : Problem V) (d : Solver V) : Prop where
  num : Numbering p d.order d.nodes
  lenV : d.values.length = p.numLabels.length
  lenS : d.states.length = p.numLabels.length
  srow : ∀ v, v < p.numLabels.length → (d.states.getD v []).length = p.numLabels.getD v 0 * (childFactors p (ordOf d.order) v).length

theorem pairVal_good (hset : Setting o bop accNeutral p) (hf : Forest p ord) {v f c l s : Nat} (hc : childVia p ord v f = some c)
    (hl : l < p.numLabels.getD v 0) (hs : s < p.numLabels.getD c 0) : bop (pairVal o p f v l s) accNeutral = true := by
  obtain ⟨⟨t, ht, h1⟩, hlt⟩ := (childVia_eq_some hf.sorted).mp hc
  have htm := List.mem_of_getElem? ht
  have hsort := hf.sorted t htm
  rcases h1 with h1 | h1
  · rw [(pairVal_eq ht l s).1 h1]
    refine hset.term t htm _ ?_
    rw [h1]; simp only [restrict, List.map_cons, List.map_nil, InShape]; exact ⟨hl, hs, trivial⟩
  · rw [(pairVal_eq (v := v) ht l s).2 (by rintro rfl; omega) h1]
    refine hset.term t htm _ ?_
    rw [h1]; simp only [restrict, List.map_cons, List.map_nil, InShape]; exact ⟨hs, hl, trivial⟩

theorem unaryVal_good (hset : Setting o bop accNeutral p) {v f l : Nat} (hu : unaryAt p v f = true)
    (hl : l < p.numLabels.getD v 0) : bop (unaryVal o p f l) accNeutral = true := by
  unfold unaryAt at hu
  unfold unaryVal
  cases ht : p.terms[f]? with
  | none => rw [ht] at hu; cases hu
  | some t =>
    rw [ht] at hu
    simp only [decide_eq_true_eq] at hu
    refine hset.term t (List.mem_of_getElem? ht) _ ?_
    rw [hu]; simp only [restrict, List.map_cons, List.map_nil, InShape]; exact ⟨hl, trivial⟩

theorem getD_set_ne {α : Type} {l : List (List α)} {v c : Nat} (row : List α) (h : c ≠ v) : (l.set v row).getD c [] = l.getD c [] := by
  rw [List.getD_eq_getElem?_getD, List.getElem?_set_ne (Ne.symm h), ← List.getD_eq_getElem?_getD]

theorem valOf_set_ne {values : List (List V)} {v c : Nat} (row : List V) (h : c ≠ v) (l : Nat) :
    valOf o (values.set v row) c l = valOf o values c l := by
  unfold valOf
  rw [getD_set_ne _ h]

theorem getD_set_self {α : Type} {l : List (List α)} {v : Nat} (row : List α) (h : v < l.length) : (l.set v row).getD v [] = row := by
  rw [List.getD_eq_getElem?_getD, List.getElem?_set_self h]; rfl

/-- One node. -/
theorem nodeStep_spec (hset : Setting o bop accNeutral p) (hr : Represents gm p) (h2 : ∀ t ∈ p.terms, t.vars.length ≤ 2)
    {d : Solver V} (hd : Shape p d) {v : Nat} (hv : v < p.numLabels.length)
    (hkids : ∀ c, ordOf d.order v < ordOf d.order c → c < p.numLabels.length →
      (d.values.getD c []).length = p.numLabels.getD c 0 ∧
      ∀ l, l < p.numLabels.getD c 0 → bop (valOf o d.values c l) accNeutral = true) :
    ∃ row srow msg st, nodeStep o bop accNeutral gm d v = .ok () ⟨d.order, d.nodes, d.values.set v row, d.states.set v srow, d.started⟩ ∧
      Shape p ⟨d.order, d.nodes, d.values.set v row, d.states.set v srow, d.started⟩ ∧
      NodeDone o bop accNeutral p (ordOf d.order) (d.values.set v row) (d.states.set v srow) v msg st := by
  have hf := hd.num.forest hr h2
  have hvS : v < d.states.length := by rw [hd.lenS]; exact hv
  have hvV : v < d.values.length := by rw [hd.lenV]; exact hv
  have hsr : d.states[v]? = some (d.states.getD v []) := by
    simp [List.getD_eq_getElem?_getD, List.getElem?_eq_getElem hvS]
  have hkids' : ∀ f c, childVia p (ordOf d.order) v f = some c → (d.values.getD c []).length = p.numLabels.getD c 0 ∧
      ∀ l, l < p.numLabels.getD c 0 → bop (valOf o d.values c l) accNeutral = true :=
    fun f c hc => hkids c ((childVia_eq_some hf.sorted).mp hc).2 (childVia_range hf hc)
  obtain ⟨w, msg, st, e1, hw⟩ := factorLoop_spec hset hr hd.num.len hf hd.lenV hv hkids'
    ((List.range p.terms.length).filter (mentions p.terms v)) []
    ⟨List.replicate (p.numLabels.getD v 0) o.neutral, d.states.getD v [], 0⟩ (fun _ _ => o.neutral) (fun _ _ => 0) (by simp)
    ⟨by simp, hd.srow v hv, by simp, by
        intro l hl
        simp only [List.getElem?_replicate, hl, if_true, List.filter_nil, List.map_nil]; rfl,
      by simp, by simp, by simp⟩
  have hne : ∀ f c, childVia p (ordOf d.order) v f = some c → c ≠ v := by
    rintro f c hc rfl
    have := ((childVia_eq_some hf.sorted).mp hc).2
    omega
  have memF : ∀ f, owns p (ordOf d.order) v f = true → f ∈ (List.range p.terms.length).filter (mentions p.terms v) := by
    intro f hfo
    have hlt : f < p.terms.length := by
      unfold owns unaryAt childVia at hfo
      cases ht : p.terms[f]? with
      | none => rw [ht] at hfo; simp at hfo
      | some t => exact (List.getElem?_eq_some_iff.mp ht).1
    have : f ∈ termsOf p (ordOf d.order) v := List.mem_filter.mpr ⟨List.mem_range.mpr hlt, hfo⟩
    rw [termsOf_eq] at this
    exact (List.mem_filter.mp this).1
  have hval : ∀ l, l < p.numLabels.getD v 0 → valOf o (d.values.set v w.row) v l =
      total o ((termsOf p (ordOf d.order) v).map (fun f => msg f l)) := by
    intro l hl
    unfold valOf
    rw [getD_set_self _ hvV, List.getD_eq_getElem?_getD, hw.row l hl, termsOf_eq]
    rfl
  have hbest : ∀ f c l, childVia p (ordOf d.order) v f = some c → l < p.numLabels.getD v 0 →
      st f l < p.numLabels.getD c 0 ∧ msg f l = o.op (pairVal o p f v l (st f l)) (valOf o d.values c (st f l)) ∧
      ∀ s, s < p.numLabels.getD c 0 → bop (o.op (pairVal o p f v l s) (valOf o d.values c s)) (msg f l) = false :=
    fun f c l hc hl => hw.best f c l (memF f (by simp [owns, hc])) hc hl
  refine ⟨w.row, w.srow, msg, st, ?_, ⟨hd.num, by simpa using hd.lenV, by simpa using hd.lenS, ?_⟩, ⟨⟨hval, ?_, ?_⟩, ?_, ?_, ?_⟩⟩
  · unfold nodeStep
    rw [hr.adj v (by rw [hr.labels]; exact hv), hr.labels, getD_some hv, hsr]
    simp only
    rw [e1]
  · intro u hu
    by_cases e : u = v
    · subst e
      simp only
      rw [getD_set_self _ hvS]
      exact hw.lenS
    · simp only
      rw [getD_set_ne _ e]
      exact hd.srow u hu
  · intro f l hu hl
    exact hw.unary f l (memF f (by simp [owns, hu])) hu hl
  · intro f c l hc hl
    have hcv := hne f c hc
    obtain ⟨q1, q2, q3⟩ := hbest f c l hc hl
    refine ⟨q1, ?_, ?_⟩
    · rw [valOf_set_ne _ hcv]; exact q2
    · intro s hs
      rw [valOf_set_ne _ hcv]; exact q3 s hs
  · rw [getD_set_self _ hvV]; exact hw.lenR
  · intro l hl
    rw [hval l hl]
    apply total_good hset
    intro a ha
    obtain ⟨f, hfm, rfl⟩ := List.mem_map.mp ha
    have hown := (List.mem_filter.mp hfm).2
    cases hc : childVia p (ordOf d.order) v f with
    | some c =>
      obtain ⟨q1, q2, _⟩ := hbest f c l hc hl
      rw [q2]
      exact hset.op _ _ (pairVal_good hset hf hc hl q1) ((hkids' f c hc).2 _ q1)
    | none =>
      have hu : unaryAt p v f = true := by simpa [owns, hc] using hown
      rw [hw.unary f l (memF f hown) hu hl]
      exact unaryVal_good hset hu hl
  · intro k f l hk hl
    rw [getD_set_self _ hvS]
    rw [childFactors_eq] at hk
    exact hw.states k f l hk hl

theorem NodeDone.frame {values : List (List V)} {states : List (List (Option Nat))} {u v : Nat} {msg : Nat → Nat → V}
    {st : Nat → Nat → Nat} (hf : Forest p ord) (h : NodeDone o bop accNeutral p ord values states u msg st) (hlt : ord v < ord u)
    (row : List V) (srow : List (Option Nat)) :
    NodeDone o bop accNeutral p ord (values.set v row) (states.set v srow) u msg st := by
  have huv : u ≠ v := by rintro rfl; omega
  refine ⟨⟨?_, h.rows.unary, ?_⟩, ?_, ?_, ?_⟩
  · intro l hl
    rw [valOf_set_ne _ huv]; exact h.rows.row l hl
  · intro f c l hc hl
    have hcv : c ≠ v := by
      rintro rfl
      have := ((childVia_eq_some hf.sorted).mp hc).2
      omega
    obtain ⟨q1, q2, q3⟩ := h.rows.best f c l hc hl
    refine ⟨q1, ?_, ?_⟩
    · rw [valOf_set_ne _ hcv]; exact q2
    · intro s hs
      rw [valOf_set_ne _ hcv]; exact q3 s hs
  · rw [getD_set_ne _ huv]; exact h.len
  · intro l hl
    rw [valOf_set_ne _ huv]; exact h.good l hl
  · intro k f l hk hl
    rw [getD_set_ne _ huv]; exact h.states k f l hk hl

theorem nodeLoop_spec (hset : Setting o bop accNeutral p) (hr : Represents gm p) (h2 : ∀ t ∈ p.terms, t.vars.length ≤ 2) :
    ∀ (k : Nat) (d : Solver V), k ≤ p.numLabels.length → Shape p d →
      (∀ v, v < p.numLabels.length → k ≤ ordOf d.order v →
        ∃ msg st, NodeDone o bop accNeutral p (ordOf d.order) d.values d.states v msg st) →
      ∃ d', nodeLoop o bop accNeutral gm k d = .ok () d' ∧ Shape p d' ∧ d'.started = d.started ∧
        ∀ v, v < p.numLabels.length → ∃ msg st, NodeDone o bop accNeutral p (ordOf d'.order) d'.values d'.states v msg st := by
  intro k
  induction k with
  | zero => intro d _ hd h; exact ⟨d, rfl, hd, rfl, fun v hv => h v hv (by omega)⟩
  | succ k ih =>
    intro d hk hd h
    have hf := hd.num.forest hr h2
    have hkn : k < d.nodes.length := by rw [hd.num.lenN]; omega
    have hord := (hd.num.at_ _ _).mpr (List.getElem?_eq_getElem hkn)
    have hv : d.nodes[k] < p.numLabels.length := by rw [← hd.num.len]; exact (List.getElem?_eq_some_iff.mp hord).1
    have hok : ordOf d.order d.nodes[k] = k := by
      rw [ordOf, List.getD_eq_getElem?_getD, hord]; rfl
    obtain ⟨row, srow, msg, st, e1, e2, e3⟩ := nodeStep_spec (o := o) (bop := bop) (accNeutral := accNeutral) hset hr h2 hd hv
      (fun c hc hcr => by
        obtain ⟨msg, st, hn⟩ := h c hcr (by omega)
        exact ⟨hn.len, hn.good⟩)
    unfold nodeLoop
    rw [List.getElem?_eq_getElem hkn]
    simp only
    rw [e1]
    simp only
    refine ih _ (by omega) e2 ?_
    · intro u hu hku
      simp only at hku ⊢
      by_cases e : u = d.nodes[k]
      · subst e; exact ⟨msg, st, e3⟩
      · have hne : ordOf d.order u ≠ k := fun h' => e (hf.inj u _ hu hv (by omega))
        obtain ⟨msg', st', hn⟩ := h u hu (by omega)
        exact ⟨msg', st', hn.frame hf (by omega) row srow⟩

theorem infer_spec (hset : Setting o bop accNeutral p) (hr : Represents gm p) (h2 : ∀ t ∈ p.terms, t.vars.length ≤ 2)
    {d : Solver V} (hd : Shape p d) :
    ∃ d', infer o bop accNeutral gm d = .ok () d' ∧ Shape p d' ∧ d'.started = true ∧
        ∀ v, v < p.numLabels.length → ∃ msg st, NodeDone o bop accNeutral p (ordOf d'.order) d'.values d'.states v msg st := by
  have hnv : gm.numberOfVariables = p.numLabels.length := by rw [GM.numberOfVariables, hr.labels]
  have hd' : Shape p ⟨d.order, d.nodes, d.values, d.states, true⟩ := ⟨hd.num, hd.lenV, hd.lenS, hd.srow⟩
  have hf := hd.num.forest hr h2
  unfold infer
  rw [hnv]
  exact nodeLoop_spec hset hr h2 _ _ (Nat.le_refl _) hd' (fun v hv hle => by
    have := hf.lt v hv
    simp only at hle
    omega)

end node
end OpenGM.DP
