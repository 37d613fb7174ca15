import Verif.Model.AlphaExpansion
import Verif.Props.GraphCut
/-
Lemmas about class AlphaExpansion.
-/
namespace OpenGM
namespace AlphaExpansion
open Spec GraphCut
variable {V : Type} [CommRing V] [LinearOrder V]

theorem restrict_uniform {L : Nat} (nl vs : List Nat) (h2 : ∀ n ∈ nl, n = L) (hv : ∀ v ∈ vs, v < nl.length) :
    restrict nl vs = List.replicate vs.length L := by
  unfold restrict
  induction vs with
  | nil => rfl
  | cons v vs ih =>
    have hl : v < nl.length := hv v (by simp)
    have : nl.getD v 0 = L := by simp [hl, h2 _ (List.getElem_mem hl)]
    rw [List.map_cons, this, ih (fun w hw => hv w (by simp [hw])), List.length_cons, List.replicate_succ]

theorem inShape_uniform {L : Nat} (c : List Nat) (k : Nat) (hk : c.length = k) (hc : ∀ l ∈ c, l < L) :
    InShape (List.replicate k L) c := by
  subst hk
  induction c with
  | nil => simp [InShape]
  | cons a c ih =>
    rw [List.length_cons, List.replicate_succ]
    exact ⟨hc a (by simp), ih (fun l hl => hc l (by simp [hl]))⟩

omit [CommRing V] [LinearOrder V] in
theorem callFactor_tuple {gm : GM V} {f : FactorRec} {t : Term V} (hm : FactorMatches gm f t) {L : Nat}
    (h2 : ∀ n ∈ gm.numLabels, n = L) (c : List Nat) (hc : c.length = t.vars.length) (hne : c ≠ []) (hlt : ∀ l ∈ c, l < L) :
    gm.callFactor f c = some (t.table c) := by
  obtain ⟨fn, h1, h3, h4⟩ := hm.fn
  rw [restrict_uniform _ _ h2 hm.range] at h3
  have hin : InShape fn.shape c := by rw [h3]; exact inShape_uniform c _ hc hlt
  simp only [GM.callFactor, h1, callFn]
  cases hsh : fn.shape with
  | nil => rw [hsh] at hin; cases c with
    | nil => exact absurd rfl hne
    | cons a c => simp [InShape] at hin
  | cons n sh =>
    simp only [← hsh]
    have h5 := inShape_of_InShape _ _ [] hin
    rw [List.append_nil] at h5
    rw [h5, if_pos rfl, ← InShape_length _ _ hin, List.take_length, h4 c hin]

/-- The terms behind `unary` and `pairwise`. -/
def unaryT (var : Nat) (v0 v1 : V) : Term V := ⟨[var], fun c => if c = [0] then v0 else v1⟩
def pairT (var1 var2 : Nat) (v0 v1 v2 v3 : V) : Term V :=
  ⟨[var1, var2], fun c => if c = [0, 0] then v0 else if c = [0, 1] then v1 else if c = [1, 0] then v2 else v3⟩

omit [LinearOrder V] in
theorem unary_matches (N var : Nat) (v0 v1 : V) (h : var < N) : ViewMatches N (unary var v0 v1) (unaryT var v0 v1) where
  vars := rfl
  range := by simp [unaryT, h]
  order := by simp [unaryT]
  val := by
    intro c hc _ hlt
    match c, hc with
    | [l], _ =>
      have := hlt l (by simp)
      have : l = 0 ∨ l = 1 := by omega
      rcases this with rfl | rfl <;> simp [unary, unaryT]

omit [LinearOrder V] in
theorem pairwise_matches (N a b : Nat) (v0 v1 v2 v3 : V) (ha : a < N) (hb : b < N) :
    ViewMatches N (pairwise a b v0 v1 v2 v3) (pairT a b v0 v1 v2 v3) where
  vars := rfl
  range := by simp [pairT, ha, hb]
  order := by simp [pairT]
  val := by
    intro c hc _ hlt
    match c, hc with
    | [l, m], _ =>
      have h1 := hlt l (by simp)
      have h2 := hlt m (by simp)
      have hl : l = 0 ∨ l = 1 := by omega
      have hm : m = 0 ∨ m = 1 := by omega
      rcases hl with rfl | rfl <;> rcases hm with rfl | rfl <;> simp [pairwise, pairT]

/-- The labels after the move given by `x`. -/
def moved (label : List Nat) (α : Nat) (x : List Nat) : List Nat :=
  label.mapIdx (fun v l => if l ≠ α ∧ x.getD v 0 = 0 then α else l)

/-- The assignment of the binary variables that stands for the present labels: all variables keep their labels. -/
def keep (label : List Nat) (α : Nat) (x : List Nat) : List Nat :=
  x.mapIdx (fun v b => if v < label.length then (if label.getD v 0 = α then b else 1) else 0)

theorem moved_getD (label : List Nat) (α : Nat) (x : List Nat) (v : Nat) (hv : v < label.length) :
    (moved label α x).getD v 0 = if label.getD v 0 ≠ α ∧ x.getD v 0 = 0 then α else label.getD v 0 := by
  simp [moved, hv]

theorem keep_getD (label : List Nat) (α : Nat) (x : List Nat) (v : Nat) (hv : v < x.length) :
    (keep label α x).getD v 0 = if v < label.length then (if label.getD v 0 = α then x.getD v 0 else 1) else 0 := by
  simp [keep, hv]

/-- The number of auxiliary variables for term `t`. -/
def auxOf (label : List Nat) (α : Nat) (t : Term V) : Nat :=
  match t.vars with
  | [a, b] => if label.getD a 0 ≠ label.getD b 0 ∧ label.getD a 0 ≠ α ∧ label.getD b 0 ≠ α then 1 else 0
  | _ => 0

/-- What the terms `ts` for the binary solver, made from the term `t`, have to do with `t`. -/
structure Expands (N : Nat) (label : List Nat) (α : Nat) (t : Term V) (vs : List (FactorView V)) (ts : List (Term V)) : Prop where
  views : List.Forall₂ (ViewMatches N) vs ts
  sub : ∀ s ∈ ts, s.vars.length = 2 → s.table [0, 0] + s.table [1, 1] ≤ s.table [0, 1] + s.table [1, 0]
  le : ∀ x : List Nat, x.length = N → (∀ l ∈ x, l < 2) →
    t.value (moved label α x) + (ts.map (fun s => s.value (keep label α x))).sum ≤
      t.value label + (ts.map (fun s => s.value x)).sum

theorem getD_lt_two {x : List Nat} (h : ∀ l ∈ x, l < 2) (v : Nat) : x.getD v 0 = 0 ∨ x.getD v 0 = 1 := by
  by_cases hv : v < x.length
  · have := h _ (List.getElem_mem hv)
    simp [hv]; omega
  · simp [hv]

theorem expandFactor_spec [IsStrictOrderedRing V] {gm : GM V} {f : FactorRec} {t : Term V} (hm : FactorMatches gm f t) {L : Nat}
    (h2 : ∀ n ∈ gm.numLabels, n = L) (ho : t.vars.length ≤ 2) (hpotts : t.IsPotts L) (label : List Nat)
    (hlen : label.length = gm.numLabels.length) (hlab : ∀ l ∈ label, l < L) (α : Nat) (hα : α < L) (N varX : Nat)
    (hX : gm.numLabels.length ≤ varX) (hN : varX + auxOf label α t ≤ N) :
    ∃ vs ts, expandFactor gm label α varX f = some (vs, varX + auxOf label α t) ∧ Expands N label α t vs ts := by
  have hsize := hm.visSize
  have hvis := hm.visAt
  have hrange := hm.range
  have hlD : ∀ v, v < label.length → label.getD v 0 < L := by
    intro v hv
    have := hlab _ (List.getElem_mem hv)
    simpa [hv] using this
  unfold expandFactor
  rw [hsize]
  match hv : t.vars with
  | [] =>
    refine ⟨[], [], ?_, ⟨.nil, by simp, ?_⟩⟩
    · simp [auxOf, hv]
    · intro x _ _
      simp [Term.value, hv, restrict]
  | [v] =>
    rw [hv] at hvis hrange
    have hvl : v < label.length := by rw [hlen]; exact hrange v (by simp)
    have e0 : gm.visAt f 0 = some v := by rw [hvis 0 (by rw [hsize, hv]; simp)]; rfl
    rw [if_pos (show [v].length = 1 from rfl), e0]
    have hlv : label[v]? = some (label.getD v 0) := by simp [hvl]
    have hb := hlD v hvl
    simp only [hlv]
    have haux : auxOf label α t = 0 := by simp [auxOf, hv]
    rw [haux] at hN ⊢
    by_cases hl : label.getD v 0 = α
    · rw [if_neg (by simp only [ne_eq, hl, not_true, not_false_iff])]
      refine ⟨[], [], rfl, ⟨.nil, by simp, ?_⟩⟩
      intro x _ _
      simp only [Term.value, hv, restrict, List.map_cons, List.map_nil, moved_getD label α x v hvl, hl]
      simp
    · rw [if_pos hl]
      rw [callFactor_tuple hm h2 [α] (by simp [hv]) (by simp) (by simpa using hα),
        callFactor_tuple hm h2 [label.getD v 0] (by simp [hv]) (by simp) (by simpa using hb)]
      refine ⟨_, [unaryT v (t.table [α]) (t.table [label.getD v 0])], rfl, ⟨?_, ?_, ?_⟩⟩
      · exact .cons (unary_matches N v _ _ (by omega)) .nil
      · intro s hs; simp at hs; subst hs; simp [unaryT]
      · intro x hx hx2
        have hk := keep_getD label α x v (by omega)
        rw [if_pos hvl, if_neg hl] at hk
        have hmv := moved_getD label α x v hvl
        simp only [Term.value, hv, unaryT, restrict, List.map_cons, List.map_nil, List.sum_cons, List.sum_nil, hk, hmv]
        rcases getD_lt_two hx2 v with h | h
        · rw [h, if_pos ⟨hl, rfl⟩]; simp; linarith
        · rw [h]; simp
  | [a, b] =>
    rw [hv] at hvis hrange
    have hal : a < label.length := by rw [hlen]; exact hrange a (by simp)
    have hbl : b < label.length := by rw [hlen]; exact hrange b (by simp)
    have e0 : gm.visAt f 0 = some a := by rw [hvis 0 (by rw [hsize, hv]; simp)]; rfl
    have e1 : gm.visAt f 1 = some b := by rw [hvis 1 (by rw [hsize, hv]; simp)]; rfl
    rw [if_neg (by simp), if_pos (show [a, b].length = 2 from rfl), e0, e1]
    have hla : label[a]? = some (label.getD a 0) := by simp [hal]
    have hlb : label[b]? = some (label.getD b 0) := by simp [hbl]
    have hba := hlD a hal
    have hbb := hlD b hbl
    simp only [hla, hlb]
    have call : ∀ l m, l < L → m < L → gm.callFactor f [l, m] = some (t.table [l, m]) := by
      intro l m hl hm'
      exact callFactor_tuple hm h2 [l, m] (by simp [hv]) (by simp) (by simp [hl, hm'])
    have haN : a < N := by omega
    have hbN : b < N := by omega
    obtain ⟨e, d, hed, hd, htab⟩ := hpotts (by rw [hv]; rfl)
    have mva := fun x => moved_getD label α x a hal
    have mvb := fun x => moved_getD label α x b hbl
    generalize hLA : label.getD a 0 = la at *
    generalize hLB : label.getD b 0 = lb at *
    by_cases ca : la = α
    · by_cases cb : lb = α
      · rw [if_pos ⟨ca, cb⟩]
        have haux : auxOf label α t = 0 := by simp only [auxOf, hv, hLA, hLB, ca, cb]; simp
        rw [haux]
        refine ⟨[], [], rfl, ⟨.nil, by simp, ?_⟩⟩
        intro x _ _
        simp only [Term.value, hv, restrict, List.map_cons, List.map_nil, mva, mvb, hLA, hLB, ca, cb]
        simp
      · rw [if_neg (fun h => cb h.2), if_pos ca, call _ _ hα hα, call _ _ hα hbb]
        have haux : auxOf label α t = 0 := by simp only [auxOf, hv, hLA, hLB, ca]; simp
        rw [haux]
        refine ⟨_, [unaryT b (t.table [α, α]) (t.table [α, lb])], rfl, ⟨.cons (unary_matches N b _ _ hbN) .nil, ?_, ?_⟩⟩
        · intro s hs; simp at hs; subst hs; simp [unaryT]
        · intro x hx hx2
          have hk := keep_getD label α x b (by omega)
          rw [if_pos hbl, hLB, if_neg cb] at hk
          simp only [Term.value, hv, unaryT, restrict, List.map_cons, List.map_nil, List.sum_cons, List.sum_nil, hk, mva, mvb, hLA, hLB, ca]
          rcases getD_lt_two hx2 b with h | h
          · rw [h, if_pos (show lb ≠ α ∧ 0 = 0 from ⟨cb, rfl⟩)]; simp; linarith
          · rw [h]; simp
    · by_cases cb : lb = α
      · rw [if_neg (fun h => ca h.1), if_neg ca, if_pos cb, call _ _ hα hα, call _ _ hba hα]
        have haux : auxOf label α t = 0 := by simp only [auxOf, hv, hLA, hLB, cb]; simp
        rw [haux]
        refine ⟨_, [unaryT a (t.table [α, α]) (t.table [la, α])], rfl, ⟨.cons (unary_matches N a _ _ haN) .nil, ?_, ?_⟩⟩
        · intro s hs; simp at hs; subst hs; simp [unaryT]
        · intro x hx hx2
          have hk := keep_getD label α x a (by omega)
          rw [if_pos hal, hLA, if_neg ca] at hk
          simp only [Term.value, hv, unaryT, restrict, List.map_cons, List.map_nil, List.sum_cons, List.sum_nil, hk, mva, mvb, hLA, hLB, cb]
          rcases getD_lt_two hx2 a with h | h
          · rw [h, if_pos (show la ≠ α ∧ 0 = 0 from ⟨ca, rfl⟩)]; simp; linarith
          · rw [h]; simp
      · rw [if_neg (fun h => ca h.1), if_neg ca, if_neg cb, call _ _ hα hα, call _ _ hα hbb, call _ _ hba hα, call _ _ hba hbb]
        simp only
        by_cases cab : la = lb
        · rw [if_pos cab]
          have haux : auxOf label α t = 0 := by simp only [auxOf, hv, hLA, hLB, cab]; simp
          rw [haux]
          refine ⟨_, [pairT a b (t.table [α, α]) (t.table [α, lb]) (t.table [la, α]) (t.table [la, lb])], rfl,
            ⟨.cons (pairwise_matches N a b _ _ _ _ haN hbN) .nil, ?_, ?_⟩⟩
          · intro s hs; simp at hs; subst hs
            simp only [pairT]
            rw [htab _ _ hα hα, htab _ _ hα hbb, htab _ _ hba hα, htab _ _ hba hbb]
            simp [cab, Ne.symm cb, cb]
            linarith
          · intro x hx hx2
            have hka := keep_getD label α x a (by omega)
            rw [if_pos hal, hLA, if_neg ca] at hka
            have hkb := keep_getD label α x b (by omega)
            rw [if_pos hbl, hLB, if_neg cb] at hkb
            simp only [Term.value, hv, pairT, restrict, List.map_cons, List.map_nil, List.sum_cons, List.sum_nil, hka, hkb, mva, mvb, hLA, hLB]
            rcases getD_lt_two hx2 a with h | h <;> rcases getD_lt_two hx2 b with h' | h' <;> rw [h, h'] <;> simp [ca, cb] <;> linarith
        · rw [if_neg cab]
          have haux : auxOf label α t = 1 := by simp only [auxOf, hv, hLA, hLB]; simp [cab, ca, cb]
          rw [haux] at hN ⊢
          refine ⟨_, [pairT a varX 0 (t.table [α, lb]) 0 0, pairT b varX 0 (t.table [la, α]) 0 0, unaryT varX (t.table [α, α]) (t.table [la, lb])], rfl,
            ⟨.cons (pairwise_matches N a varX _ _ _ _ haN (by omega)) (.cons (pairwise_matches N b varX _ _ _ _ hbN (by omega))
              (.cons (unary_matches N varX _ _ (by omega)) .nil)), ?_, ?_⟩⟩
          · intro s hs
            have t1 := htab _ _ hα hbb
            have t2 := htab _ _ hba hα
            rw [if_neg (Ne.symm cb)] at t1
            rw [if_neg ca] at t2
            simp at hs
            rcases hs with rfl | rfl | rfl
            · simp [pairT, t1, hd]
            · simp [pairT, t2, hd]
            · simp [unaryT]
          · intro x hx hx2
            have hka := keep_getD label α x a (by omega)
            rw [if_pos hal, hLA, if_neg ca] at hka
            have hkb := keep_getD label α x b (by omega)
            rw [if_pos hbl, hLB, if_neg cb] at hkb
            have hkx := keep_getD label α x varX (by omega)
            rw [if_neg (by omega)] at hkx
            have t0 := htab _ _ hα hα
            have t1 := htab _ _ hα hbb
            have t2 := htab _ _ hba hα
            have t3 := htab _ _ hba hbb
            rw [if_neg (Ne.symm cb)] at t1
            rw [if_neg ca] at t2
            rw [if_neg cab] at t3
            rw [if_pos rfl] at t0
            simp only [Term.value, hv, pairT, unaryT, restrict, List.map_cons, List.map_nil, List.sum_cons, List.sum_nil, hka, hkb, hkx, mva, mvb, hLA, hLB, t0, t1, t2, t3]
            rcases getD_lt_two hx2 a with h | h <;> rcases getD_lt_two hx2 b with h' | h' <;> rcases getD_lt_two hx2 varX with h'' | h'' <;>
              rw [h, h', h''] <;> simp [ca, cb, t0, t1, t2, t3] <;> linarith
  | a :: b :: c :: l => rw [hv] at ho; simp at ho

/-- The number of auxiliary variables for all terms. -/
def auxAll (label : List Nat) (α : Nat) (terms : List (Term V)) : Nat := (terms.map (auxOf label α)).sum

omit [CommRing V] [LinearOrder V] in
theorem countAux_spec {gm : GM V} {fs : List FactorRec} {terms : List (Term V)} (hm : List.Forall₂ (FactorMatches gm) fs terms)
    (label : List Nat) (hlen : label.length = gm.numLabels.length) (α : Nat) :
    countAux gm label α fs = some (auxAll label α terms) := by
  induction hm with
  | nil => rfl
  | cons h hs ih =>
    rename_i f t fs ts
    have hsize := h.visSize
    have hvis := h.visAt
    have hrange := h.range
    rw [countAux, hsize]
    simp only [auxAll, List.map_cons, List.sum_cons]
    by_cases h2 : t.vars.length = 2
    · rw [if_pos h2]
      match hv : t.vars, h2 with
      | [a, b], _ =>
        rw [hv] at hrange
        have hal : a < label.length := by rw [hlen]; exact hrange a (by simp)
        have hbl : b < label.length := by rw [hlen]; exact hrange b (by simp)
        have e0 : gm.visAt f 0 = some a := by rw [hvis 0 (by rw [hsize, hv]; simp), hv]; rfl
        have e1 : gm.visAt f 1 = some b := by rw [hvis 1 (by rw [hsize, hv]; simp), hv]; rfl
        have hla : label[a]? = some (label.getD a 0) := by simp [hal]
        have hlb : label[b]? = some (label.getD b 0) := by simp [hbl]
        simp only [e0, e1, hla, hlb, ih]
        simp only [auxOf, hv]
        split
        · rw [auxAll, Nat.add_comm]
        · simp [auxAll]
    · rw [if_neg h2, ih]
      have : auxOf label α t = 0 := by
        unfold auxOf
        split
        · rename_i heq; rw [heq] at h2; simp at h2
        · rfl
      rw [this, zero_add]; rfl

theorem expandFactors_spec [IsStrictOrderedRing V] {gm : GM V} {fs : List FactorRec} {terms : List (Term V)}
    (hm : List.Forall₂ (FactorMatches gm) fs terms) {L : Nat}
    (h2 : ∀ n ∈ gm.numLabels, n = L) (ho : ∀ t ∈ terms, t.vars.length ≤ 2) (hpotts : ∀ t ∈ terms, t.IsPotts L) (label : List Nat)
    (hlen : label.length = gm.numLabels.length) (hlab : ∀ l ∈ label, l < L) (α : Nat) (hα : α < L) (N : Nat) : ∀ varX,
    gm.numLabels.length ≤ varX → varX + auxAll label α terms ≤ N →
    ∃ vs ts, expandFactors gm label α fs varX = some vs ∧ List.Forall₂ (ViewMatches N) vs ts ∧
      (∀ s ∈ ts, s.vars.length = 2 → s.table [0, 0] + s.table [1, 1] ≤ s.table [0, 1] + s.table [1, 0]) ∧
      (∀ x : List Nat, x.length = N → (∀ l ∈ x, l < 2) →
        (terms.map (fun t => t.value (moved label α x))).sum + (ts.map (fun s => s.value (keep label α x))).sum ≤
          (terms.map (fun t => t.value label)).sum + (ts.map (fun s => s.value x)).sum) := by
  induction hm with
  | nil =>
    intro varX _ _
    exact ⟨[], [], rfl, .nil, by simp, by simp⟩
  | cons h hs ih =>
    rename_i f t fs ts
    intro varX hX hN
    simp only [auxAll, List.map_cons, List.sum_cons] at hN
    obtain ⟨vs1, ts1, e1, x1⟩ := expandFactor_spec h h2 (ho t (by simp)) (hpotts t (by simp)) label hlen hlab α hα N varX hX (by omega)
    obtain ⟨vs2, ts2, e2, v2, s2, l2⟩ := ih (fun t' h' => ho t' (by simp [h'])) (fun t' h' => hpotts t' (by simp [h']))
      (varX + auxOf label α t) (by omega) (by simp only [auxAll]; omega)
    refine ⟨vs1 ++ vs2, ts1 ++ ts2, ?_, List.rel_append x1.views v2, ?_, ?_⟩
    · simp only [expandFactors, e1, e2]
    · intro s hs
      rw [List.mem_append] at hs
      rcases hs with hs | hs
      · exact x1.sub s hs
      · exact s2 s hs
    · intro x hx hx2
      have := x1.le x hx hx2
      have := l2 x hx hx2
      simp only [List.map_cons, List.sum_cons, List.map_append, List.sum_append]
      linarith

theorem alphaUnaries_spec [IsStrictOrderedRing V] (inf : V) (α : Nat) (N : Nat) (label : List Nat) : ∀ (ls : List Nat) (k : Nat),
    (∀ i, i < ls.length → ls.getD i 0 = label.getD (k + i) 0) → k + ls.length ≤ N → k + ls.length ≤ label.length →
    ∃ ts : List (Term V), List.Forall₂ (ViewMatches N) (alphaUnaries inf α ls k) ts ∧ (∀ s ∈ ts, s.vars.length = 1) ∧
      ∀ x : List Nat, x.length = N → (ts.map (fun s => s.value (keep label α x))).sum = (ts.map (fun s => s.value x)).sum := by
  intro ls
  induction ls with
  | nil =>
    intro k _ _ _
    exact ⟨[], .nil, by simp, by simp⟩
  | cons l ls ih =>
    intro k hk hN hL
    simp only [List.length_cons] at hN hL
    obtain ⟨ts, h1, h2, h3⟩ := ih (k + 1) (by
      intro i hi
      have := hk (i + 1) (by simp; omega)
      rw [show k + 1 + i = k + (i + 1) by omega, ← this]
      simp) (by omega) (by omega)
    rw [alphaUnaries]
    by_cases hl : l = α
    · rw [if_pos hl]
      refine ⟨unaryT k 0 inf :: ts, .cons (unary_matches N k _ _ (by omega)) h1, ?_, ?_⟩
      · intro s hs
        simp only [List.mem_cons] at hs
        rcases hs with rfl | hs
        · rfl
        · exact h2 s hs
      · intro x hx
        have hk0 := hk 0 (by simp)
        simp only [List.getD_cons_zero, Nat.add_zero] at hk0
        have hke := keep_getD label α x k (by omega)
        rw [if_pos (by omega), if_pos (by rw [← hk0]; exact hl)] at hke
        simp only [List.map_cons, List.sum_cons, h3 x hx]
        simp only [unaryT, Term.value, restrict, List.map_cons, List.map_nil, hke]
    · rw [if_neg hl]
      exact ⟨ts, h1, h2, h3⟩

theorem applyMove_spec (α : Nat) (state : List Nat) : ∀ (ls : List Nat) (k : Nat), k + ls.length ≤ state.length →
    applyMove α state ls k = some (ls.mapIdx (fun i l => if l ≠ α ∧ state.getD (k + i) 0 = 0 then α else l)) := by
  intro ls
  induction ls with
  | nil => intro k _; rfl
  | cons l ls ih =>
    intro k hk
    simp only [List.length_cons] at hk
    rw [applyMove, ih (k + 1) (by omega)]
    have hks : k < state.length := by omega
    have h1 : (if l ≠ α then (state[k]?).map (fun s => if s = 0 then α else l) else some l) =
        some (if l ≠ α ∧ state.getD k 0 = 0 then α else l) := by
      by_cases hl : l = α
      · simp [hl]
      · simp [hl, hks]
    rw [h1]
    simp only [List.mapIdx_cons, Nat.add_zero]
    congr 2
    apply List.ext_getElem (by simp)
    intro i _ _
    simp only [List.getElem_mapIdx, show k + 1 + i = k + (i + 1) by omega]

/-- One expansion. -/
theorem expand_spec [IsStrictOrderedRing V] {gm : GM V} {p : Problem V} (hs : Stores gm p) {L : Nat} (h2 : ∀ n ∈ p.numLabels, n = L)
    (ho : ∀ t ∈ p.terms, t.vars.length ≤ 2) (hpotts : ∀ t ∈ p.terms, t.IsPotts L) (label : List Nat) (hlab : p.Labeling label)
    (α : Nat) (hα : α < L) (scale inf : V) (hscale : 0 < scale) (solver : Network V → List Bool → List Bool)
    (hsolver : ExactSolver (fun n => solver n [])) :
    ∃ label', expand solver inf scale gm label α = some label' ∧ p.Labeling label' ∧
      p.energy (sumOp V) label' ≤ p.energy (sumOp V) label ∧
      ∀ v, v < label.length → label'.getD v 0 = label.getD v 0 ∨ label'.getD v 0 = α := by
  have hl := hs.labels
  have hlen : label.length = gm.numLabels.length := by rw [hl]; exact hlab.1
  have hlt : ∀ l ∈ label, l < L := by
    intro l hl
    obtain ⟨i, hi, rfl⟩ := List.getElem_of_mem hl
    have hi' : i < p.numLabels.length := hlab.1 ▸ hi
    have := hlab.2 i label[i] p.numLabels[i] (List.getElem?_eq_getElem hi) (List.getElem?_eq_getElem hi')
    rwa [h2 _ (List.getElem_mem hi')] at this
  unfold expand
  rw [countAux_spec hs.factors label hlen α]
  simp only
  by_cases hc : label.countP (fun l => decide (l = α)) < gm.numberOfVariables
  · rw [if_pos hc]
    have hn : gm.numberOfVariables = gm.numLabels.length := rfl
    obtain ⟨vs, ts, e1, v1, s1, l1⟩ := expandFactors_spec hs.factors (by rw [hl]; exact h2) ho hpotts label hlen hlt α hα
      (gm.numberOfVariables + auxAll label α p.terms) gm.numberOfVariables (le_of_eq rfl) (le_refl _)
    obtain ⟨us, v2, s2, l2⟩ := alphaUnaries_spec inf α (gm.numberOfVariables + auxAll label α p.terms) label label 0
      (by intro i _; rw [Nat.zero_add]) (by rw [hn]; omega) (by omega)
    rw [e1]
    simp only
    obtain ⟨g, g', x, a1, a2, a3, a4, a5, a6⟩ := C41_added_factors .minimizer (by decide) _ _ _ (List.rel_append v2 v1)
      (by
        rw [if_pos rfl]
        intro s hs hlen2
        rw [List.mem_append] at hs
        rcases hs with hs | hs
        · rw [s2 s hs] at hlen2; omega
        · exact s1 s hs hlen2) scale 0 hscale solver hsolver []
    rw [a1]
    simp only [a2, a3]
    rw [applyMove_spec α x label 0 (by rw [a4, hn]; omega)]
    refine ⟨moved label α x, ?_, ?_, ?_, ?_⟩
    · simp only [Nat.zero_add]; rfl
    · refine ⟨by simp [moved, hlab.1], ?_⟩
      intro v l n hv hnv
      rw [h2 n (List.mem_of_getElem? hnv)]
      have : l ∈ moved label α x := List.mem_of_getElem? hv
      simp only [moved, List.mem_mapIdx] at this
      obtain ⟨i, hi, rfl⟩ := this
      split
      · exact hα
      · exact hlt _ (List.getElem_mem hi)
    · have hk := a6 (keep label α x) (by simp [keep, a4]) (by
        intro l hl
        simp only [keep, List.mem_mapIdx] at hl
        obtain ⟨i, hi, rfl⟩ := hl
        split
        · split
          · exact a5 _ (List.getElem_mem hi)
          · omega
        · omega)
      simp only [signed, List.map_append, List.sum_append] at hk
      have h3 := l1 x a4 a5
      have h4 := l2 x a4
      unfold Problem.energy
      rw [sum_foldl, sum_foldl]
      simp at hk
      linarith
    · intro v hv
      rw [moved_getD label α x v hv]
      split
      · exact Or.inr rfl
      · exact Or.inl rfl
  · rw [if_neg hc]
    exact ⟨label, rfl, hlab, le_refl _, fun v _ => Or.inl rfl⟩

end AlphaExpansion
end OpenGM
