import Verif.Lemmas.DPGraph
import Verif.Lemmas.EnergySum
import Verif.Lemmas.Queues
import Mathlib.Data.List.Nodup
/-
Dynamic programming on a forest, as mathematics: eliminating the variables in decreasing order of their numbers.
-/
namespace OpenGM.DP
open Spec
open scoped Classical
variable {V : Type}

/-- Every variable has at most one neighbour with a smaller number. -/
structure Forest (p : Problem V) (ord : Nat → Nat) : Prop where
  inj : ∀ v w, v < p.numLabels.length → w < p.numLabels.length → ord v = ord w → v = w
  lt : ∀ v, v < p.numLabels.length → ord v < p.numLabels.length
  surj : ∀ t, t < p.numLabels.length → ∃ v, v < p.numLabels.length ∧ ord v = t
  uniq : ∀ c f u f' u', PairTerm p f u c → PairTerm p f' u' c → ord u < ord c → ord u' < ord c → f = f' ∧ u = u'
  two : ∀ t ∈ p.terms, t.vars.length ≤ 2
  range : ∀ t ∈ p.terms, ∀ v ∈ t.vars, v < p.numLabels.length
  sorted : ∀ t ∈ p.terms, t.vars.Pairwise (· < ·)

/-- The other variable of term `f`, if it is a term of `v` and a variable with a larger number. -/
def childVia (p : Problem V) (ord : Nat → Nat) (v f : Nat) : Option Nat :=
  match p.terms[f]? with
  | none => none
  | some t =>
    match t.vars with
    | [a, b] => if a = v ∧ ord v < ord b then some b else if b = v ∧ ord v < ord a then some a else none
    | _ => none

/-- Term `f` is a term of `v` alone. -/
def unaryAt (p : Problem V) (v f : Nat) : Bool :=
  match p.terms[f]? with
  | none => false
  | some t => decide (t.vars = [v])

/-- The terms that `v` takes account of. -/
def owns (p : Problem V) (ord : Nat → Nat) (v f : Nat) : Bool := unaryAt p v f || (childVia p ord v f).isSome

/-- Value of a term of two variables with label `l` for `v` and `lc` for the other one. -/
def pairVal (o : Operation V) (p : Problem V) (f v l lc : Nat) : V :=
  match p.terms[f]? with
  | none => o.neutral
  | some t =>
    match t.vars with
    | [a, _] => if a = v then t.table [l, lc] else t.table [lc, l]
    | _ => o.neutral

def unaryVal (o : Operation V) (p : Problem V) (f l : Nat) : V :=
  match p.terms[f]? with
  | none => o.neutral
  | some t => t.table [l]

variable {p : Problem V} {ord : Nat → Nat}

theorem childVia_eq_some (hs : ∀ t ∈ p.terms, t.vars.Pairwise (· < ·)) {v f c : Nat} :
    childVia p ord v f = some c ↔ PairTerm p f v c ∧ ord v < ord c := by
  unfold childVia PairTerm
  cases ht : p.terms[f]? with
  | none => simp
  | some t =>
    have hsort := hs t (List.mem_of_getElem? ht)
    simp only [Option.some.injEq, exists_eq_left']
    match hv : t.vars with
    | [] => simp
    | [a] => simp
    | a :: b :: d :: e => simp
    | [a, b] =>
      rw [hv] at hsort
      simp only [List.pairwise_cons, List.mem_singleton, forall_eq] at hsort
      have hab : a < b := hsort.1
      simp only
      by_cases c1 : a = v ∧ ord v < ord b
      · rw [if_pos c1]
        obtain ⟨rfl, h2⟩ := c1
        simp only [Option.some.injEq, List.cons.injEq, and_true, true_and]
        constructor
        · rintro rfl; exact ⟨Or.inl rfl, h2⟩
        · rintro ⟨h | h, _⟩
          · exact h
          · omega
      · rw [if_neg c1]
        by_cases c2 : b = v ∧ ord v < ord a
        · rw [if_pos c2]
          obtain ⟨rfl, h2⟩ := c2
          simp only [Option.some.injEq, List.cons.injEq, and_true]
          constructor
          · rintro rfl; exact ⟨Or.inr rfl, h2⟩
          · rintro ⟨h | h, _⟩
            · omega
            · exact h
        · rw [if_neg c2]
          simp only [reduceCtorEq, false_iff, List.cons.injEq, and_true, not_and]
          rintro (⟨rfl, rfl⟩ | ⟨rfl, rfl⟩) h
          · exact c1 ⟨rfl, h⟩
          · exact c2 ⟨rfl, h⟩

theorem owner_unique (hf : Forest p ord) {v w f : Nat} (h1 : owns p ord v f = true) (h2 : owns p ord w f = true) : v = w := by
  unfold owns at h1 h2
  simp only [Bool.or_eq_true, Option.isSome_iff_exists] at h1 h2
  have hun : ∀ a b c, unaryAt p a f = true → PairTerm p f b c → False := by
    rintro a b c h ⟨t, ht, h'⟩
    unfold unaryAt at h
    rw [ht] at h
    simp only [decide_eq_true_eq] at h
    rw [h] at h'
    simp at h'
  rcases h1 with h1 | ⟨c, h1⟩ <;> rcases h2 with h2 | ⟨c', h2⟩
  · unfold unaryAt at h1 h2
    cases ht : p.terms[f]? with
    | none => rw [ht] at h1; simp at h1
    | some t =>
      rw [ht] at h1 h2
      simp only [decide_eq_true_eq] at h1 h2
      rw [h1] at h2
      simpa using h2
  · exact absurd ((childVia_eq_some hf.sorted).mp h2).1 (fun h => hun _ _ _ h1 h)
  · exact absurd ((childVia_eq_some hf.sorted).mp h1).1 (fun h => hun _ _ _ h2 h)
  · obtain ⟨a1, a2⟩ := (childVia_eq_some hf.sorted).mp h1
    obtain ⟨b1, b2⟩ := (childVia_eq_some hf.sorted).mp h2
    rcases a1.other b1 with ⟨rfl, _⟩ | ⟨rfl, rfl⟩
    · rfl
    · omega

/-- Terms that `v` owns. -/
noncomputable def termsOf (p : Problem V) (ord : Nat → Nat) (v : Nat) : List Nat :=
  (List.range p.terms.length).filter (owns p ord v)

/-- Terms without owner or with owner numbered below `t`. -/
noncomputable def termsBelow (p : Problem V) (ord : Nat → Nat) (t : Nat) : List Nat :=
  (List.range p.terms.length).filter (fun f => decide (∀ v, owns p ord v f = true → ord v < t))

/-- Variables numbered `t` or above whose parent is numbered below `t`. -/
noncomputable def frontier (p : Problem V) (ord : Nat → Nat) (t : Nat) : List Nat :=
  (List.range p.numLabels.length).filter
    (fun c => decide (t ≤ ord c ∧ ∀ u f, childVia p ord u f = some c → ord u < t))

theorem owns_range (hf : Forest p ord) {v f : Nat} (h : owns p ord v f = true) : v < p.numLabels.length := by
  unfold owns at h
  simp only [Bool.or_eq_true, Option.isSome_iff_exists] at h
  rcases h with h | ⟨c, h⟩
  · unfold unaryAt at h
    cases ht : p.terms[f]? with
    | none => rw [ht] at h; simp at h
    | some t =>
      rw [ht] at h
      simp only [decide_eq_true_eq] at h
      exact hf.range t (List.mem_of_getElem? ht) v (by simp [h])
  · obtain ⟨⟨t, ht, h1⟩, _⟩ := (childVia_eq_some hf.sorted).mp h
    refine hf.range t (List.mem_of_getElem? ht) v ?_
    rcases h1 with h1 | h1 <;> simp [h1]

theorem childVia_range (hf : Forest p ord) {v f c : Nat} (h : childVia p ord v f = some c) : c < p.numLabels.length := by
  obtain ⟨⟨t, ht, h1⟩, _⟩ := (childVia_eq_some hf.sorted).mp h
  refine hf.range t (List.mem_of_getElem? ht) c ?_
  rcases h1 with h1 | h1 <;> simp [h1]

theorem perm_of_filters {α : Type} (l : List α) (hl : l.Nodup) (P Q R : α → Prop) [DecidablePred P] [DecidablePred Q]
    [DecidablePred R] (h : ∀ a ∈ l, (P a ↔ Q a ∨ R a)) (hd : ∀ a ∈ l, Q a → ¬ R a) :
    (l.filter (fun a => decide (P a))).Perm (l.filter (fun a => decide (Q a)) ++ l.filter (fun a => decide (R a))) := by
  rw [List.perm_ext_iff_of_nodup (hl.filter _)]
  · intro a
    simp only [List.mem_filter, List.mem_append, decide_eq_true_eq]
    constructor
    · rintro ⟨h1, h2⟩
      rcases (h a h1).mp h2 with h | h
      · exact Or.inl ⟨h1, h⟩
      · exact Or.inr ⟨h1, h⟩
    · rintro (⟨h1, h2⟩ | ⟨h1, h2⟩)
      · exact ⟨h1, (h a h1).mpr (Or.inl h2)⟩
      · exact ⟨h1, (h a h1).mpr (Or.inr h2)⟩
  · rw [List.nodup_append]
    refine ⟨hl.filter _, hl.filter _, ?_⟩
    intro a ha b hb
    simp only [List.mem_filter, decide_eq_true_eq] at ha hb
    rintro rfl
    exact hd a ha.1 ha.2 hb.2

theorem termsBelow_succ (hf : Forest p ord) {v t : Nat} (hv : v < p.numLabels.length) (ht : ord v = t) :
    (termsBelow p ord (t + 1)).Perm (termsBelow p ord t ++ termsOf p ord v) := by
  unfold termsBelow termsOf
  have := perm_of_filters (List.range p.terms.length) List.nodup_range
    (fun f => ∀ v, owns p ord v f = true → ord v < t + 1) (fun f => ∀ v, owns p ord v f = true → ord v < t)
    (fun f => owns p ord v f = true) ?_ ?_
  · refine this.trans (List.Perm.of_eq ?_)
    congr 2
    funext f; simp
  · intro f _
    constructor
    · intro h
      by_cases c : owns p ord v f = true
      · exact Or.inr c
      · left
        intro w hw
        have h1 := h w hw
        have : ord w ≠ t := by
          intro e
          have := hf.inj v w hv (owns_range hf hw) (by omega)
          subst this
          exact c hw
        omega
    · rintro (h | h) w hw
      · have := h w hw; omega
      · have := owner_unique hf h hw
        subst this; omega
  · intro f _ h1 h2
    have := h1 v h2
    omega

/-- The children of `v`, in the order of the terms. -/
noncomputable def kids (p : Problem V) (ord : Nat → Nat) (v : Nat) : List Nat := (termsOf p ord v).filterMap (childVia p ord v)

theorem childVia_lt {v f c : Nat} (h : childVia p ord v f = some c) : f < p.terms.length := by
  unfold childVia at h
  cases ht : p.terms[f]? with
  | none => rw [ht] at h; cases h
  | some t => exact (List.getElem?_eq_some_iff.mp ht).1

theorem mem_kids {v c : Nat} : c ∈ kids p ord v ↔ ∃ f, childVia p ord v f = some c := by
  unfold kids termsOf
  simp only [List.mem_filterMap, List.mem_filter, List.mem_range]
  constructor
  · rintro ⟨f, _, h⟩; exact ⟨f, h⟩
  · rintro ⟨f, h⟩
    exact ⟨f, ⟨childVia_lt h, by simp [owns, h]⟩, h⟩

theorem kids_nodup (hf : Forest p ord) (v : Nat) : (kids p ord v).Nodup := by
  unfold kids termsOf
  apply List.Nodup.filterMap
  · intro f f' c h1 h2
    simp only [Option.mem_def] at h1 h2
    obtain ⟨a1, a2⟩ := (childVia_eq_some hf.sorted).mp h1
    obtain ⟨b1, b2⟩ := (childVia_eq_some hf.sorted).mp h2
    exact (hf.uniq c f v f' v a1 b1 a2 b2).1
  · exact List.nodup_range.filter _

theorem parent_unique (hf : Forest p ord) {u v f g c : Nat} (h1 : childVia p ord u f = some c) (h2 : childVia p ord v g = some c) :
    u = v := by
  obtain ⟨a1, a2⟩ := (childVia_eq_some hf.sorted).mp h1
  obtain ⟨b1, b2⟩ := (childVia_eq_some hf.sorted).mp h2
  exact (hf.uniq c f u g v a1 b1 a2 b2).2

theorem frontier_succ (hf : Forest p ord) {v t : Nat} (hv : v < p.numLabels.length) (ht : ord v = t) :
    ∃ rest : List Nat, (frontier p ord (t + 1)).Perm (rest ++ kids p ord v) ∧ (frontier p ord t).Perm (v :: rest) := by
  refine ⟨(List.range p.numLabels.length).filter
    (fun c => decide (t + 1 ≤ ord c ∧ ∀ u f, childVia p ord u f = some c → ord u < t)), ?_, ?_⟩
  · have h1 := perm_of_filters (List.range p.numLabels.length) List.nodup_range
      (fun c => t + 1 ≤ ord c ∧ ∀ u f, childVia p ord u f = some c → ord u < t + 1)
      (fun c => t + 1 ≤ ord c ∧ ∀ u f, childVia p ord u f = some c → ord u < t)
      (fun c => ∃ f, childVia p ord v f = some c) ?_ ?_
    · refine h1.trans (List.Perm.append_left _ ?_)
      rw [List.perm_ext_iff_of_nodup (List.nodup_range.filter _) (kids_nodup hf v)]
      intro c
      simp only [List.mem_filter, List.mem_range, decide_eq_true_eq, mem_kids, and_iff_right_iff_imp]
      rintro ⟨f, h⟩
      exact childVia_range hf h
    · intro c hc
      constructor
      · rintro ⟨a1, a2⟩
        by_cases e : ∃ f, childVia p ord v f = some c
        · exact Or.inr e
        · left
          refine ⟨a1, ?_⟩
          intro u f hu
          have := a2 u f hu
          have hne : ord u ≠ t := by
            intro e2
            have hou : owns p ord u f = true := by simp [owns, hu]
            have := hf.inj v u hv (owns_range hf hou) (by omega)
            subst this
            exact e ⟨f, hu⟩
          omega
      · rintro (⟨a1, a2⟩ | ⟨f, h⟩)
        · exact ⟨a1, fun u f hu => by have := a2 u f hu; omega⟩
        · have h2 := ((childVia_eq_some hf.sorted).mp h).2
          refine ⟨by omega, ?_⟩
          intro u g hu
          rw [← parent_unique hf h hu]; omega
    · rintro c _ ⟨_, a2⟩ ⟨f, h⟩
      have := a2 v f h
      omega
  · rw [frontier, List.perm_ext_iff_of_nodup (List.nodup_range.filter _)]
    · intro c
      simp only [List.mem_filter, List.mem_range, decide_eq_true_eq, List.mem_cons]
      constructor
      · rintro ⟨a1, a2, a3⟩
        by_cases e : c = v
        · exact Or.inl e
        · right
          refine ⟨a1, ?_, a3⟩
          have : ord c ≠ t := fun e2 => e (hf.inj c v a1 hv (by omega))
          omega
      · rintro (rfl | ⟨a1, a2, a3⟩)
        · refine ⟨hv, by omega, ?_⟩
          intro u f hu
          have := ((childVia_eq_some hf.sorted).mp hu).2
          omega
        · exact ⟨a1, by omega, a3⟩
    · rw [List.nodup_cons]
      refine ⟨?_, List.nodup_range.filter _⟩
      simp only [List.mem_filter, List.mem_range, decide_eq_true_eq, not_and]
      omega

variable {o : Operation V} (ho : o.IsCommMonoid)
include ho

theorem total_filterMap (F : List Nat) (ch : Nat → Option Nat) (a : Nat → V) (b : Nat → V) :
    o.op (total o (F.map a)) (total o ((F.filterMap ch).map b)) =
      total o (F.map (fun f => match ch f with | some c => o.op (a f) (b c) | none => a f)) := by
  have nr : ∀ a, o.op a o.neutral = a := fun a => by rw [ho.comm, ho.neutral_left]
  induction F with
  | nil => simp [total, ho.neutral_left]
  | cons f F ih =>
    simp only [List.map_cons, List.filterMap_cons]
    cases hc : ch f with
    | none =>
      simp only
      rw [total_cons ho, total_cons ho, ho.assoc, ih]
    | some c =>
      simp only [List.map_cons]
      rw [total_cons ho, total_cons ho, total_cons ho, ← ih]
      rw [ho.assoc, ← ho.assoc (total o (F.map a)), ho.comm (total o (F.map a)) (b c), ho.assoc, ← ho.assoc (a f)]

theorem total_not_better {better : V → V → Bool} (hw : StrictWeak better) (hrf : Reflects o better) (F : List Nat) (a w : Nat → V)
    (h : ∀ f ∈ F, better (a f) (w f) = false) : better (total o (F.map a)) (total o (F.map w)) = false := by
  induction F with
  | nil => exact hw.irrefl _
  | cons f F ih =>
    simp only [List.map_cons]
    rw [total_cons ho, total_cons ho]
    have h1 := ih (fun g hg => h g (by simp [hg]))
    have h2 := h f (by simp)
    have e1 : better (o.op (a f) (total o (F.map a))) (o.op (a f) (total o (F.map w))) = false := by
      cases hb : better (o.op (a f) (total o (F.map a))) (o.op (a f) (total o (F.map w))) with
      | false => rfl
      | true => rw [hrf _ _ _ hb] at h1; cases h1
    have e2 : better (o.op (a f) (total o (F.map w))) (o.op (w f) (total o (F.map w))) = false := by
      rw [ho.comm (a f), ho.comm (w f)]
      cases hb : better (o.op (total o (F.map w)) (a f)) (o.op (total o (F.map w)) (w f)) with
      | false => rfl
      | true => rw [hrf _ _ _ hb] at h2; cases h2
    exact hw.le_trans e2 e1

theorem op_not_better {better : V → V → Bool} (hrf : Reflects o better) (r : V) {a b : V} (h : better a b = false) :
    better (o.op r a) (o.op r b) = false := by
  cases hb : better (o.op r a) (o.op r b) with
  | false => rfl
  | true => rw [hrf _ _ _ hb] at h; cases h

omit ho in
theorem total_congr (F : List Nat) (a b : Nat → V) (h : ∀ f ∈ F, a f = b f) : total o (F.map a) = total o (F.map b) := by
  rw [List.map_congr_left h]

/-- The value of the partially eliminated problem. -/
noncomputable def elim (o : Operation V) (p : Problem V) (ord : Nat → Nat) (val : Nat → Nat → V) (x : List Nat) (t : Nat) : V :=
  o.op (total o ((termsBelow p ord t).map (termVal o p x))) (total o ((frontier p ord t).map (fun c => val c (x.getD c 0))))

/-- What is known about the rows of values of the variables and the recorded states. -/
structure Rows (o : Operation V) (better : V → V → Bool) (p : Problem V) (ord : Nat → Nat) (val : Nat → Nat → V)
    (msg : Nat → Nat → V) (st : Nat → Nat → Nat) (v : Nat) : Prop where
  row : ∀ l, l < p.numLabels.getD v 0 → val v l = total o ((termsOf p ord v).map (fun f => msg f l))
  unary : ∀ f l, unaryAt p v f = true → l < p.numLabels.getD v 0 → msg f l = unaryVal o p f l
  best : ∀ f c l, childVia p ord v f = some c → l < p.numLabels.getD v 0 →
    st f l < p.numLabels.getD c 0 ∧ msg f l = o.op (pairVal o p f v l (st f l)) (val c (st f l)) ∧
    ∀ s, s < p.numLabels.getD c 0 → better (o.op (pairVal o p f v l s) (val c s)) (msg f l) = false

omit ho in
theorem termVal_unary {x : List Nat} {v f : Nat} (h : unaryAt p v f = true) : termVal o p x f = unaryVal o p f (x.getD v 0) := by
  unfold unaryAt at h
  unfold termVal unaryVal
  cases ht : p.terms[f]? with
  | none => rfl
  | some t =>
    rw [ht] at h
    simp only [decide_eq_true_eq] at h
    simp [Term.value, h, restrict]

omit ho in
theorem termVal_pair (hf : Forest p ord) {x : List Nat} {v f c : Nat} (h : childVia p ord v f = some c) :
    termVal o p x f = pairVal o p f v (x.getD v 0) (x.getD c 0) := by
  obtain ⟨⟨t, ht, h1⟩, hlt⟩ := (childVia_eq_some hf.sorted).mp h
  unfold termVal pairVal
  rw [ht]
  have hsort := hf.sorted t (List.mem_of_getElem? ht)
  rcases h1 with h1 | h1
  · simp [Term.value, h1, restrict]
  · rw [h1] at hsort
    simp at hsort
    simp only [Term.value, h1, restrict]
    rw [if_neg (by omega)]
    rfl

/-- The labeling follows the recorded states. -/
def Follows (p : Problem V) (ord : Nat → Nat) (st : Nat → Nat → Nat → Nat) (x : List Nat) : Prop :=
  ∀ v f c, childVia p ord v f = some c → x.getD c 0 = st v f (x.getD v 0)

omit ho in
theorem labeling_getD {x : List Nat} (hx : p.Labeling x) {v : Nat} (hv : v < p.numLabels.length) :
    x.getD v 0 < p.numLabels.getD v 0 := by
  have h1 : v < x.length := by rw [hx.1]; exact hv
  have := hx.2 v x[v] p.numLabels[v] (List.getElem?_eq_getElem h1) (List.getElem?_eq_getElem hv)
  simpa [List.getD_eq_getElem?_getD, List.getElem?_eq_getElem h1, List.getElem?_eq_getElem hv] using this

theorem elim_step (hf : Forest p ord) {better : V → V → Bool} (hw : StrictWeak better) (hrf : Reflects o better)
    {val : Nat → Nat → V} {msg : Nat → Nat → Nat → V} {st : Nat → Nat → Nat → Nat} {v t : Nat} (hv : v < p.numLabels.length) (ht : ord v = t)
    (hrow : Rows o better p ord val (msg v) (st v) v) {x : List Nat} (hx : p.Labeling x) :
    better (elim o p ord val x (t + 1)) (elim o p ord val x t) = false ∧
    (Follows p ord st x → elim o p ord val x (t + 1) = elim o p ord val x t) := by
  obtain ⟨rest, r1, r2⟩ := frontier_succ hf hv ht
  have hxv := labeling_getD hx hv
  unfold elim
  rw [total_perm ho ((termsBelow_succ hf hv ht).map _), total_perm ho (r1.map _), total_perm ho (r2.map _)]
  simp only [List.map_append, List.map_cons]
  rw [total_append ho, total_append ho, total_cons ho]
  have key : ∀ T F R K W : V, o.op (o.op T F) (o.op R K) = o.op (o.op T R) (o.op F K) := by
    intro T F R K W
    rw [ho.assoc, ho.assoc]
    congr 1
    rw [← ho.assoc F R K, ho.comm F R, ho.assoc]
  have key2 : ∀ T R W : V, o.op T (o.op W R) = o.op (o.op T R) W := by
    intro T R W
    rw [ho.assoc, ho.comm W R]
  rw [key _ _ _ _ o.neutral, key2 _ _ (val v _)]
  have hk : kids p ord v = (termsOf p ord v).filterMap (childVia p ord v) := rfl
  rw [hk, total_filterMap ho, hrow.row _ hxv]
  constructor
  · apply op_not_better ho hrf
    apply total_not_better ho hw hrf
    intro f hfm
    unfold termsOf at hfm
    have hown := (List.mem_filter.mp hfm).2
    cases hc : childVia p ord v f with
    | some c =>
      simp only
      rw [termVal_pair hf hc]
      exact (hrow.best f c _ hc hxv).2.2 _ (labeling_getD hx (childVia_range hf hc))
    | none =>
      simp only
      have hu : unaryAt p v f = true := by simpa [owns, hc] using hown
      rw [termVal_unary hu, hrow.unary f _ hu hxv]
      exact hw.irrefl _
  · intro hfol
    congr 1
    apply total_congr
    intro f hfm
    unfold termsOf at hfm
    have hown := (List.mem_filter.mp hfm).2
    cases hc : childVia p ord v f with
    | some c =>
      simp only
      rw [termVal_pair hf hc, (hrow.best f c _ hc hxv).2.1, hfol v f c hc]
    | none =>
      simp only
      have hu : unaryAt p v f = true := by simpa [owns, hc] using hown
      rw [termVal_unary hu, hrow.unary f _ hu hxv]

theorem elim_all (hf : Forest p ord) {better : V → V → Bool} (hw : StrictWeak better) (hrf : Reflects o better)
    {val : Nat → Nat → V} {msg : Nat → Nat → Nat → V} {st : Nat → Nat → Nat → Nat}
    (hrow : ∀ v, v < p.numLabels.length → Rows o better p ord val (msg v) (st v) v) {x : List Nat} (hx : p.Labeling x) :
    ∀ k t, t + k = p.numLabels.length → better (p.energy o x) (elim o p ord val x t) = false ∧
      (Follows p ord st x → p.energy o x = elim o p ord val x t) := by
  intro k
  induction k with
  | zero =>
    intro t ht
    have h1 : termsBelow p ord t = List.range p.terms.length := by
      unfold termsBelow
      rw [List.filter_eq_self]
      intro f _
      simp only [decide_eq_true_eq]
      intro v hv
      have := hf.lt v (owns_range hf hv)
      omega
    have h2 : frontier p ord t = [] := by
      unfold frontier
      rw [List.filter_eq_nil_iff]
      intro c hc
      have := hf.lt c (List.mem_range.mp hc)
      simp only [decide_eq_true_eq, not_and]
      omega
    have : p.energy o x = elim o p ord val x t := by
      unfold elim
      rw [h1, h2, energy_eq_total, List.map_nil, ho.comm]
      exact (ho.neutral_left _).symm
    rw [← this]
    exact ⟨hw.irrefl _, fun _ => rfl⟩
  | succ k ih =>
    intro t ht
    obtain ⟨i1, i2⟩ := ih (t + 1) (by omega)
    obtain ⟨v, hv, hvt⟩ := hf.surj t (by omega)
    obtain ⟨s1, s2⟩ := elim_step ho hf hw hrf hv hvt (hrow v hv) hx
    exact ⟨hw.le_trans s1 i1, fun h => (i2 h).trans (s2 h)⟩

/-- A labeling that follows the recorded states and is best at the roots is optimal. -/
theorem follows_optimal (hf : Forest p ord) {better : V → V → Bool} (hw : StrictWeak better) (hrf : Reflects o better)
    {val : Nat → Nat → V} {msg : Nat → Nat → Nat → V} {st : Nat → Nat → Nat → Nat}
    (hrow : ∀ v, v < p.numLabels.length → Rows o better p ord val (msg v) (st v) v) {y : List Nat} (hy : p.Labeling y)
    (hfol : Follows p ord st y)
    (hroot : ∀ r, r < p.numLabels.length → (∀ u f, childVia p ord u f ≠ some r) → ∀ l, l < p.numLabels.getD r 0 →
      better (val r l) (val r (y.getD r 0)) = false) :
    ∀ x, p.Labeling x → better (p.energy o x) (p.energy o y) = false := by
  intro x hx
  obtain ⟨a1, _⟩ := elim_all ho hf hw hrf hrow hx p.numLabels.length 0 (by omega)
  obtain ⟨_, b2⟩ := elim_all ho hf hw hrf hrow hy p.numLabels.length 0 (by omega)
  rw [b2 hfol]
  refine hw.le_trans ?_ a1
  unfold elim
  have hT : (termsBelow p ord 0).map (termVal o p x) = (termsBelow p ord 0).map (termVal o p y) := by
    apply List.map_congr_left
    intro f hfm
    unfold termsBelow at hfm
    simp only [List.mem_filter, List.mem_range, decide_eq_true_eq, Nat.not_lt_zero] at hfm
    apply termVal_congr
    intro v hv
    exfalso
    unfold mentions at hv
    cases htt : p.terms[f]? with
    | none => rw [htt] at hv; simp at hv
    | some t =>
      rw [htt] at hv
      have hlen := hf.two t (List.mem_of_getElem? htt)
      have hsort := hf.sorted t (List.mem_of_getElem? htt)
      have hrg := hf.range t (List.mem_of_getElem? htt)
      match hvs : t.vars, hlen with
      | [], _ => simp [hvs] at hv
      | [a], _ => exact hfm.2 a (by simp [owns, unaryAt, htt, hvs])
      | [a, b], _ =>
        rw [hvs] at hsort hrg
        simp only [List.pairwise_cons, List.mem_singleton, forall_eq] at hsort
        have hab : a < b := hsort.1
        have hne : ord a ≠ ord b := fun e => by
          have := hf.inj a b (hrg a (by simp)) (hrg b (by simp)) e
          omega
        rcases Nat.lt_or_ge (ord a) (ord b) with h | h
        · have hcv : childVia p ord a f = some b := (childVia_eq_some hf.sorted).mpr ⟨⟨t, htt, Or.inl hvs⟩, h⟩
          exact hfm.2 a (by simp [owns, hcv])
        · have hcv : childVia p ord b f = some a := (childVia_eq_some hf.sorted).mpr ⟨⟨t, htt, Or.inr hvs⟩, by omega⟩
          exact hfm.2 b (by simp [owns, hcv])
  rw [hT]
  apply op_not_better ho hrf
  apply total_not_better ho hw hrf
  intro c hc
  unfold frontier at hc
  simp only [List.mem_filter, List.mem_range, decide_eq_true_eq, Nat.not_lt_zero] at hc
  exact hroot c hc.1 (fun u f hu => hc.2.2 u f hu) _ (labeling_getD hx hc.1)

end OpenGM.DP
