import Verif.Model.AlphaBetaSwap
import Verif.Lemmas.AlphaExpansion
/-
Lemmas about class AlphaBetaSwap: one swap.
-/
namespace OpenGM
namespace AlphaBetaSwap
open Spec GraphCut
open AlphaExpansion (unaryT pairT unary_matches pairwise_matches callFactor_tuple getD_lt_two)
variable {V : Type} [CommRing V] [LinearOrder V]

theorem selected_iff (a b l : Nat) : selected a b l = true ↔ l = a ∨ l = b := by simp [selected]

/-- The labels given by the values `x` of the binary variables. -/
def swapped (a b : Nat) (x : List Nat) (label v2n : List Nat) : List Nat :=
  List.zipWith (fun l k => if l = a ∨ l = b then (if x.getD k 0 = 0 then a else b) else l) label v2n

/-- The values of the binary variables given by labels `y`. -/
def encode (a b : Nat) : List Nat → List Nat → List Nat
  | l :: ls, m :: ms => if l = a ∨ l = b then (if m = a then 0 else 1) :: encode a b ls ms else encode a b ls ms
  | _, _ => []

theorem encode_lt (a b : Nat) : ∀ ls ms, ∀ x ∈ encode a b ls ms, x < 2
  | [], _, x, hx => by simp [encode] at hx
  | _ :: _, [], x, hx => by simp [encode] at hx
  | l :: ls, m :: ms, x, hx => by
    rw [encode] at hx
    split at hx
    · simp only [List.mem_cons] at hx
      rcases hx with rfl | hx
      · split <;> omega
      · exact encode_lt a b ls ms x hx
    · exact encode_lt a b ls ms x hx

/-- What `nodes` computes. -/
theorem nodes_spec (a b : Nat) : ∀ (ls os : List Nat) (k : Nat), ls.length ≤ os.length →
    ∃ r c, nodes a b ls os k = some (r, c) ∧ r.length = ls.length ∧ k ≤ c ∧ (c = k ↔ ∀ l ∈ ls, ¬ (l = a ∨ l = b)) ∧
      (∀ (v l n : Nat), ls[v]? = some l → r[v]? = some n → (l = a ∨ l = b) → n < c) ∧
      ∀ (ms pre : List Nat), a ≠ b → ms.length = ls.length → pre.length = k →
        (∀ (v l m : Nat), ls[v]? = some l → ms[v]? = some m → (if l = a ∨ l = b then m = a ∨ m = b else m = l)) →
        (pre ++ encode a b ls ms).length = c ∧ swapped a b (pre ++ encode a b ls ms) ls r = ms := by
  intro ls
  induction ls with
  | nil =>
    intro os k _
    refine ⟨[], k, by simp [nodes], rfl, le_refl _, by simp, by simp, ?_⟩
    intro ms pre _ hm hp _
    simp only [List.length_nil, List.length_eq_zero_iff] at hm
    subst hm
    simp [encode, swapped, hp]
  | cons l ls ih =>
    intro os k ho
    match os, ho with
    | [], ho => simp at ho
    | o :: os, ho =>
      simp only [List.length_cons, Nat.add_le_add_iff_right] at ho
      rw [nodes]
      by_cases hl : l = a ∨ l = b
      · rw [if_pos ((selected_iff a b l).mpr hl)]
        obtain ⟨r, c, h1, h2, h3, h4, h5, h6⟩ := ih os (k + 1) ho
        rw [h1]
        refine ⟨k :: r, c, rfl, by simp [h2], by omega, ?_, ?_, ?_⟩
        · constructor
          · intro h; omega
          · intro h; exact absurd hl (h l (by simp))
        · intro v l' n hv hn hs
          match v with
          | 0 => simp at hn; omega
          | v + 1 => exact h5 v l' n (by simpa using hv) (by simpa using hn) hs
        · intro ms pre hab hm hp hsw
          match ms, hm with
          | m :: ms, hm =>
            have h0 := hsw 0 l m rfl rfl
            rw [if_pos hl] at h0
            obtain ⟨e1, e2⟩ := h6 ms (pre ++ [if m = a then 0 else 1]) hab (by simpa using hm) (by simp [hp])
              (fun v l' m' h1 h2 => hsw (v + 1) l' m' (by simpa using h1) (by simpa using h2))
            rw [encode, if_pos hl]
            rw [List.append_assoc, List.singleton_append] at e1 e2
            refine ⟨e1, ?_⟩
            simp only [swapped, List.zipWith_cons_cons] at e2 ⊢
            rw [e2, if_pos hl]
            congr 1
            have : (pre ++ (if m = a then 0 else 1) :: encode a b ls ms).getD k 0 = if m = a then 0 else 1 := by simp [← hp]
            rw [this]
            rcases h0 with rfl | rfl
            · simp
            · simp [Ne.symm hab]
      · rw [if_neg (by rw [selected_iff]; exact hl)]
        obtain ⟨r, c, h1, h2, h3, h4, h5, h6⟩ := ih os k ho
        rw [h1]
        refine ⟨o :: r, c, rfl, by simp [h2], h3, ?_, ?_, ?_⟩
        · rw [h4]
          constructor
          · intro h l' hl'
            simp only [List.mem_cons] at hl'
            rcases hl' with rfl | hl'
            · exact hl
            · exact h l' hl'
          · intro h l' hl'
            exact h l' (by simp [hl'])
        · intro v l' n hv hn hs
          match v with
          | 0 => simp at hv; subst hv; exact absurd hs hl
          | v + 1 => exact h5 v l' n (by simpa using hv) (by simpa using hn) hs
        · intro ms pre hab hm hp hsw
          match ms, hm with
          | m :: ms, hm =>
            have h0 := hsw 0 l m rfl rfl
            rw [if_neg hl] at h0
            obtain ⟨e1, e2⟩ := h6 ms pre hab (by simpa using hm) hp
              (fun v l' m' h1 h2 => hsw (v + 1) l' m' (by simpa using h1) (by simpa using h2))
            rw [encode, if_neg hl]
            refine ⟨e1, ?_⟩
            simp only [swapped, List.zipWith_cons_cons] at e2 ⊢
            rw [e2, if_neg hl, h0]

theorem swapped_getD (a b : Nat) (x : List Nat) (label v2n : List Nat) (h : v2n.length = label.length) (v : Nat) (hv : v < label.length) :
    (swapped a b x label v2n).getD v 0 = if label.getD v 0 = a ∨ label.getD v 0 = b then (if x.getD (v2n.getD v 0) 0 = 0 then a else b) else label.getD v 0 := by
  have hv' : v < v2n.length := by omega
  have hv2 : v < (swapped a b x label v2n).length := by simp [swapped]; omega
  rw [show (swapped a b x label v2n).getD v 0 = (swapped a b x label v2n)[v] by simp [hv2]]
  simp [swapped, hv, hv']

/-- What the terms `ts` for the binary solver, made from the term `t`, have to do with `t`. -/
structure Swaps (N : Nat) (label v2n : List Nat) (a b : Nat) (t : Term V) (vs : List (FactorView V)) (ts : List (Term V)) : Prop where
  views : List.Forall₂ (ViewMatches N) vs ts
  pairs : ∀ s ∈ ts, s.vars.length = 2 → t.vars.length = 2 ∧ s.table [0, 0] = t.table [a, a] ∧ s.table [0, 1] = t.table [a, b] ∧ s.table [1, 0] = t.table [b, a] ∧ s.table [1, 1] = t.table [b, b]
  value : ∃ c, ∀ x : List Nat, (∀ l ∈ x, l < 2) → t.value (swapped a b x label v2n) = (ts.map (fun s => s.value x)).sum + c

theorem swapFactor_spec {gm : GM V} {f : FactorRec} {t : Term V} (hm : FactorMatches gm f t) {L : Nat}
    (h2 : ∀ n ∈ gm.numLabels, n = L) (ho : t.vars.length ≤ 2) (label v2n : List Nat)
    (hlen : label.length = gm.numLabels.length) (hlab : ∀ l ∈ label, l < L) (a b : Nat) (ha : a < L) (hb : b < L) (N : Nat)
    (hv2n : v2n.length = label.length)
    (hN : ∀ (v l n : Nat), label[v]? = some l → v2n[v]? = some n → (l = a ∨ l = b) → n < N) :
    ∃ vs ts, swapFactor gm label v2n a b f = some vs ∧ Swaps N label v2n a b t vs ts := by
  have hsize := hm.visSize
  have hvis := hm.visAt
  have hrange := hm.range
  have hlD : ∀ v, v < label.length → label.getD v 0 < L := by
    intro v hv
    have := hlab _ (List.getElem_mem hv)
    simpa [hv] using this
  unfold swapFactor
  rw [hsize]
  match hv : t.vars with
  | [] =>
    refine ⟨[], [], by simp, ⟨.nil, by simp, ?_⟩⟩
    refine ⟨t.table [], fun x _ => ?_⟩
    simp [Term.value, hv, restrict]
  | [v] =>
    rw [hv] at hvis hrange
    have hvl : v < label.length := by rw [hlen]; exact hrange v (by simp)
    have e0 : gm.visAt f 0 = some v := by rw [hvis 0 (by rw [hsize, hv]; simp)]; rfl
    rw [if_pos (show [v].length = 1 from rfl), e0]
    have hlv : label[v]? = some (label.getD v 0) := by simp [hvl]
    have hnv : v2n[v]? = some (v2n.getD v 0) := by simp [hv2n, hvl]
    have hNv := hN v _ _ hlv hnv
    have hsw := fun x => swapped_getD a b x label v2n hv2n v hvl
    simp only [hlv, hnv]
    by_cases hl : label.getD v 0 = a ∨ label.getD v 0 = b
    · rw [if_pos ((selected_iff _ _ _).mpr hl)]
      rw [callFactor_tuple hm h2 [a] (by simp [hv]) (by simp) (by simpa using ha),
        callFactor_tuple hm h2 [b] (by simp [hv]) (by simp) (by simpa using hb)]
      refine ⟨_, [unaryT (v2n.getD v 0) (t.table [a]) (t.table [b])], rfl, ⟨?_, ?_, ?_⟩⟩
      · exact .cons (unary_matches N _ _ _ (hNv hl)) .nil
      · intro s hs; simp at hs; subst hs; simp [unaryT]
      · refine ⟨0, fun x hx => ?_⟩
        simp only [Term.value, hv, unaryT, restrict, List.map_cons, List.map_nil, List.sum_cons, List.sum_nil, hsw, if_pos hl]
        rcases getD_lt_two hx (v2n.getD v 0) with h | h <;> rw [h] <;> simp
    · rw [if_neg (by rw [selected_iff]; exact hl)]
      refine ⟨[], [], rfl, ⟨.nil, by simp, t.table [label.getD v 0], fun x _ => ?_⟩⟩
      simp only [Term.value, hv, restrict, List.map_cons, List.map_nil, hsw, if_neg hl]
      simp
  | [u, w] =>
    rw [hv] at hvis hrange
    have hul : u < label.length := by rw [hlen]; exact hrange u (by simp)
    have hwl : w < label.length := by rw [hlen]; exact hrange w (by simp)
    have e0 : gm.visAt f 0 = some u := by rw [hvis 0 (by rw [hsize, hv]; simp)]; rfl
    have e1 : gm.visAt f 1 = some w := by rw [hvis 1 (by rw [hsize, hv]; simp)]; rfl
    rw [if_neg (by simp), if_pos (show [u, w].length = 2 from rfl), e0, e1]
    have hlu : label[u]? = some (label.getD u 0) := by simp [hul]
    have hlw : label[w]? = some (label.getD w 0) := by simp [hwl]
    have hnu : v2n[u]? = some (v2n.getD u 0) := by simp [hv2n, hul]
    have hnw : v2n[w]? = some (v2n.getD w 0) := by simp [hv2n, hwl]
    have hNu := hN u _ _ hlu hnu
    have hNw := hN w _ _ hlw hnw
    have hbu := hlD u hul
    have hbw := hlD w hwl
    have hsu := fun x => swapped_getD a b x label v2n hv2n u hul
    have hsw := fun x => swapped_getD a b x label v2n hv2n w hwl
    simp only [hlu, hlw, hnu, hnw]
    have call : ∀ l m, l < L → m < L → gm.callFactor f [l, m] = some (t.table [l, m]) := by
      intro l m hl hm'
      exact callFactor_tuple hm h2 [l, m] (by simp [hv]) (by simp) (by simp [hl, hm'])
    by_cases cu : label.getD u 0 = a ∨ label.getD u 0 = b
    · by_cases cw : label.getD w 0 = a ∨ label.getD w 0 = b
      · rw [if_pos (by rw [(selected_iff _ _ _).mpr cu, (selected_iff _ _ _).mpr cw]; rfl), call _ _ ha ha, call _ _ ha hb, call _ _ hb ha, call _ _ hb hb]
        refine ⟨_, [pairT (v2n.getD u 0) (v2n.getD w 0) (t.table [a, a]) (t.table [a, b]) (t.table [b, a]) (t.table [b, b])], rfl, ⟨?_, ?_, ?_⟩⟩
        · exact .cons (pairwise_matches N _ _ _ _ _ _ (hNu cu) (hNw cw)) .nil
        · intro s hs _; simp at hs; subst hs; simp [pairT, hv]
        · refine ⟨0, fun x hx => ?_⟩
          simp only [Term.value, hv, pairT, restrict, List.map_cons, List.map_nil, List.sum_cons, List.sum_nil, hsu, hsw, if_pos cu, if_pos cw]
          rcases getD_lt_two hx (v2n.getD u 0) with h | h <;> rcases getD_lt_two hx (v2n.getD w 0) with h' | h' <;> rw [h, h'] <;> simp
      · have cw' : selected a b (label.getD w 0) = false := by rw [Bool.eq_false_iff, ne_eq, selected_iff]; exact cw
        rw [if_neg (by rw [cw']; simp), if_pos ((selected_iff _ _ _).mpr cu), call _ _ ha hbw, call _ _ hb hbw]
        refine ⟨_, [unaryT (v2n.getD u 0) (t.table [a, label.getD w 0]) (t.table [b, label.getD w 0])], rfl, ⟨?_, ?_, ?_⟩⟩
        · exact .cons (unary_matches N _ _ _ (hNu cu)) .nil
        · intro s hs; simp at hs; subst hs; simp [unaryT]
        · refine ⟨0, fun x hx => ?_⟩
          simp only [Term.value, hv, unaryT, restrict, List.map_cons, List.map_nil, List.sum_cons, List.sum_nil, hsu, hsw, if_pos cu, if_neg cw]
          rcases getD_lt_two hx (v2n.getD u 0) with h | h <;> rw [h] <;> simp
    · have cu' : selected a b (label.getD u 0) = false := by rw [Bool.eq_false_iff, ne_eq, selected_iff]; exact cu
      rw [if_neg (by rw [cu']; simp), if_neg (by rw [cu']; simp)]
      by_cases cw : label.getD w 0 = a ∨ label.getD w 0 = b
      · rw [if_pos ((selected_iff _ _ _).mpr cw), call _ _ hbu ha, call _ _ hbu hb]
        refine ⟨_, [unaryT (v2n.getD w 0) (t.table [label.getD u 0, a]) (t.table [label.getD u 0, b])], rfl, ⟨?_, ?_, ?_⟩⟩
        · exact .cons (unary_matches N _ _ _ (hNw cw)) .nil
        · intro s hs; simp at hs; subst hs; simp [unaryT]
        · refine ⟨0, fun x hx => ?_⟩
          simp only [Term.value, hv, unaryT, restrict, List.map_cons, List.map_nil, List.sum_cons, List.sum_nil, hsu, hsw, if_neg cu, if_pos cw]
          rcases getD_lt_two hx (v2n.getD w 0) with h | h <;> rw [h] <;> simp
      · rw [if_neg (by rw [selected_iff]; exact cw)]
        refine ⟨[], [], rfl, ⟨.nil, by simp, t.table [label.getD u 0, label.getD w 0], fun x _ => ?_⟩⟩
        simp only [Term.value, hv, restrict, List.map_cons, List.map_nil, hsu, hsw, if_neg cu, if_neg cw]
        simp
  | a :: b :: c :: l => rw [hv] at ho; simp at ho

theorem swapFactors_spec {gm : GM V} {fs : List FactorRec} {terms : List (Term V)} (hm : List.Forall₂ (FactorMatches gm) fs terms) {L : Nat}
    (h2 : ∀ n ∈ gm.numLabels, n = L) (ho : ∀ t ∈ terms, t.vars.length ≤ 2) (label v2n : List Nat)
    (hlen : label.length = gm.numLabels.length) (hlab : ∀ l ∈ label, l < L) (a b : Nat) (ha : a < L) (hb : b < L) (N : Nat)
    (hv2n : v2n.length = label.length)
    (hN : ∀ (v l n : Nat), label[v]? = some l → v2n[v]? = some n → (l = a ∨ l = b) → n < N) :
    ∃ vs ts, swapFactors gm label v2n a b fs = some vs ∧ List.Forall₂ (ViewMatches N) vs ts ∧
      (∀ s ∈ ts, s.vars.length = 2 → ∃ t ∈ terms, t.vars.length = 2 ∧ s.table [0, 0] = t.table [a, a] ∧ s.table [0, 1] = t.table [a, b] ∧ s.table [1, 0] = t.table [b, a] ∧
        s.table [1, 1] = t.table [b, b]) ∧
      ∃ c, ∀ x : List Nat, (∀ l ∈ x, l < 2) → (terms.map (fun t => t.value (swapped a b x label v2n))).sum = (ts.map (fun s => s.value x)).sum + c := by
  induction hm with
  | nil => exact ⟨[], [], rfl, .nil, by simp, 0, by simp⟩
  | cons h hs ih =>
    rename_i f t fs ts
    obtain ⟨vs1, ts1, e1, x1⟩ := swapFactor_spec h h2 (ho t (by simp)) label v2n hlen hlab a b ha hb N hv2n hN
    obtain ⟨vs2, ts2, e2, v2, s2, c2, l2⟩ := ih (fun t' h' => ho t' (by simp [h']))
    obtain ⟨c1, l1⟩ := x1.value
    refine ⟨vs1 ++ vs2, ts1 ++ ts2, by simp only [swapFactors, e1, e2], List.rel_append x1.views v2, ?_, c1 + c2, ?_⟩
    · intro s hs hl
      rw [List.mem_append] at hs
      rcases hs with hs | hs
      · exact ⟨t, by simp, x1.pairs s hs hl⟩
      · obtain ⟨t', ht', h'⟩ := s2 s hs hl
        exact ⟨t', by simp [ht'], h'⟩
    · intro x hx
      simp only [List.map_cons, List.sum_cons, List.map_append, List.sum_append, l1 x hx, l2 x hx]
      ring

theorem applySwap_spec (a b : Nat) (x : List Nat) : ∀ (ls r : List Nat), r.length = ls.length →
    (∀ (v l n : Nat), ls[v]? = some l → r[v]? = some n → (l = a ∨ l = b) → n < x.length) →
    applySwap a b x ls r = some (swapped a b x ls r) := by
  intro ls
  induction ls with
  | nil => intro r _ _; simp [applySwap, swapped]
  | cons l ls ih =>
    intro r hr h
    match r, hr with
    | n :: r, hr =>
      rw [applySwap, ih r (by simpa using hr) (fun v l' n' h1 h2 => h (v + 1) l' n' (by simpa using h1) (by simpa using h2))]
      by_cases hl : l = a ∨ l = b
      · have hn := h 0 l n rfl rfl hl
        rw [if_pos ((selected_iff _ _ _).mpr hl), List.getElem?_eq_getElem hn]
        simp [swapped, hl, hn]
      · rw [if_neg (by rw [selected_iff]; exact hl)]
        simp [swapped, hl]

theorem swapped_move (a b : Nat) (x : List Nat) (label v2n : List Nat) (h : v2n.length = label.length) : SwapMove a b label (swapped a b x label v2n) := by
  refine ⟨by simp [swapped, h], ?_⟩
  intro v l m hl hm
  have hv := (List.getElem?_eq_some_iff.mp hl).1
  have h1 := swapped_getD a b x label v2n h v hv
  have h2 : label.getD v 0 = l := by simp [List.getD, hl]
  have h3 : (swapped a b x label v2n).getD v 0 = m := by simp [List.getD, hm]
  rw [h2, h3] at h1
  rw [h1]
  split
  · split
    · exact Or.inl rfl
    · exact Or.inr rfl
  · rfl

/-- Labelings of a model whose variables have `L` labels. -/
theorem labeling_lt {p : Problem V} {L : Nat} (h2 : ∀ n ∈ p.numLabels, n = L) {label : List Nat} (h : p.Labeling label) : ∀ l ∈ label, l < L := by
  intro l hl
  obtain ⟨i, hi, rfl⟩ := List.getElem_of_mem hl
  have hi' : i < p.numLabels.length := h.1 ▸ hi
  have := h.2 i label[i] p.numLabels[i] (List.getElem?_eq_getElem hi) (List.getElem?_eq_getElem hi')
  rwa [h2 _ (List.getElem_mem hi')] at this

theorem labeling_of_lt {p : Problem V} {L : Nat} (h2 : ∀ n ∈ p.numLabels, n = L) {label : List Nat} (hl : label.length = p.numLabels.length) (h : ∀ l ∈ label, l < L) :
    p.Labeling label := by
  refine ⟨hl, ?_⟩
  intro v l n hv hn
  rw [h2 n (List.mem_of_getElem? hn)]
  exact h l (List.mem_of_getElem? hv)

theorem _root_.OpenGM.Spec.SwapMove.labeling {p : Problem V} {L : Nat} (h2 : ∀ n ∈ p.numLabels, n = L) {a b : Nat} (ha : a < L) (hb : b < L) {x y : List Nat} (hx : p.Labeling x)
    (h : SwapMove a b x y) : p.Labeling y := by
  refine labeling_of_lt h2 (h.1.trans hx.1) ?_
  intro m hm
  obtain ⟨v, hv, rfl⟩ := List.getElem_of_mem hm
  have hv' : v < x.length := h.1 ▸ hv
  have := h.2 v x[v] y[v] (List.getElem?_eq_getElem hv') (List.getElem?_eq_getElem hv)
  split at this
  · omega
  · rw [this]; exact labeling_lt h2 hx _ (List.getElem_mem hv')

theorem _root_.OpenGM.Spec.SwapMove.none {a b : Nat} {x y : List Nat} (h : SwapMove a b x y) (hx : ∀ l ∈ x, ¬ (l = a ∨ l = b)) : y = x := by
  apply List.ext_getElem h.1
  intro v hv hv'
  have := h.2 v x[v] y[v] (List.getElem?_eq_getElem hv') (List.getElem?_eq_getElem hv)
  rwa [if_neg (hx _ (List.getElem_mem hv'))] at this

theorem _root_.OpenGM.Spec.SwapMove.refl (a b : Nat) (x : List Nat) : SwapMove a b x x := by
  refine ⟨rfl, fun v l m hl hm => ?_⟩
  rw [hl] at hm
  injection hm with hm
  subst hm
  split
  · assumption
  · rfl

theorem signed_add (acc : Acc) (x c : V) : signed acc (x + c) = signed acc x + signed acc c := by
  unfold signed
  split <;> ring

/-- One swap: the new labels are the best ones that a swap of `a` and `b` can reach. -/
theorem swap_spec [IsStrictOrderedRing V] {acc : Acc} (hacc : acc ≠ .other) {gm : GM V} {p : Problem V} (hs : Stores gm p) {L : Nat} (h2 : ∀ n ∈ p.numLabels, n = L)
    (ho : ∀ t ∈ p.terms, t.vars.length ≤ 2) (hsub : ∀ t ∈ p.terms, if acc = .minimizer then t.SwapSubmodular L else t.SwapSupermodular L)
    (label : List Nat) (hlab : p.Labeling label) (v2n : List Nat) (hv2n : v2n.length = label.length)
    (a b : Nat) (ha : a < L) (hb : b < L) (hab : a ≠ b) (solver : Network V → List Bool → List Bool) (hsolver : ExactSolver (fun n => solver n [])) :
    ∃ v2n' r, swap solver acc gm label v2n a b = some (v2n', r) ∧ v2n'.length = label.length ∧
      (r = none → ∀ y, SwapMove a b label y → y = label) ∧
      (∀ label', r = some label' → p.Labeling label' ∧ SwapMove a b label label' ∧
        ∀ y, SwapMove a b label y → signed acc (p.energy (sumOp V) label') ≤ signed acc (p.energy (sumOp V) y)) := by
  have hl := hs.labels
  have hlen : label.length = gm.numLabels.length := by rw [hl]; exact hlab.1
  have hlt := labeling_lt h2 hlab
  obtain ⟨r, c, n1, n2, _, n4, n5, n6⟩ := nodes_spec a b label v2n 0 (by omega)
  unfold swap
  rw [n1]
  simp only
  by_cases hc : c = 0
  · rw [if_pos hc]
    exact ⟨r, none, rfl, n2, fun _ y hy => hy.none (n4.mp hc), by simp⟩
  · rw [if_neg hc]
    obtain ⟨vs, ts, e1, v1, s1, d, l1⟩ := swapFactors_spec hs.factors (by rw [hl]; exact h2) ho label r hlen hlt a b ha hb c n2 n5
    rw [e1]
    simp only
    obtain ⟨g, g', x, a1, a2, a3, a4, a5, a6⟩ := C41_added_factors acc hacc c vs ts v1
      (by
        by_cases hmin : acc = .minimizer
        · rw [if_pos hmin]
          intro s hs' hlen2
          obtain ⟨t, ht, t2, q1, q2, q3, q4⟩ := s1 s hs' hlen2
          have := hsub t ht
          rw [if_pos hmin] at this
          rw [q1, q2, q3, q4]
          exact this t2 a b ha hb
        · rw [if_neg hmin]
          intro s hs' hlen2
          obtain ⟨t, ht, t2, q1, q2, q3, q4⟩ := s1 s hs' hlen2
          have := hsub t ht
          rw [if_neg hmin] at this
          rw [q1, q2, q3, q4]
          exact this t2 a b ha hb) 1 0 zero_lt_one solver hsolver []
    rw [a1]
    simp only [a2, a3]
    rw [applySwap_spec a b x label r n2 (by rw [a4]; exact n5)]
    refine ⟨r, _, rfl, n2, by simp, ?_⟩
    intro label' hl'
    injection hl' with hl'
    subst hl'
    have hmove := swapped_move a b x label r n2
    refine ⟨hmove.labeling h2 ha hb hlab, hmove, ?_⟩
    intro y hy
    obtain ⟨y1, y2⟩ := n6 y [] hab hy.1 rfl hy.2
    rw [List.nil_append] at y1 y2
    have hlt2 := encode_lt a b label y
    have h3 := a6 (encode a b label y) y1 hlt2
    have h4 := l1 x a5
    have h5 := l1 _ hlt2
    rw [y2] at h5
    unfold Problem.energy
    rw [sum_foldl, sum_foldl, h4, h5, signed_add, signed_add]
    linarith

/-! ### The order of the pairs -/

/-- `increment`, as a function on pairs. -/
def next (L : Nat) (s : Nat × Nat) : Nat × Nat := increment L s.1 s.2

/-- The states of `alpha_` and `beta_`. -/
def PairOk (L : Nat) (s : Nat × Nat) : Prop := s = (0, 0) ∨ (s.1 < s.2 ∧ s.2 < L)

theorem next_ok {L : Nat} (hL : 2 ≤ L) {s : Nat × Nat} (h : PairOk L s) : (next L s).1 < (next L s).2 ∧ (next L s).2 < L := by
  unfold next increment
  rcases h with rfl | h
  · rw [if_neg (by simp; omega)]
    exact ⟨by simp, by simp; omega⟩
  · split
    · split
      · exact ⟨by simp, by simp; omega⟩
      · exact ⟨by simp, by simp; omega⟩
    · exact ⟨by simp; omega, by simp; omega⟩

/-- The position of (a, a+1). -/
def posOf (L : Nat) : Nat → Nat
  | 0 => 0
  | a + 1 => posOf L a + (L - 1 - a)

theorem iterate_row {L a : Nat} : ∀ j, a + 1 + j < L → (next L)^[j] (a, a + 1) = (a, a + 1 + j) := by
  intro j
  induction j with
  | zero => intro _; rfl
  | succ j ih =>
    intro h
    rw [Function.iterate_succ_apply', ih (by omega)]
    unfold next increment
    rw [if_neg (by simp; omega)]
    rfl

theorem iterate_pos {L : Nat} (hL : 2 ≤ L) : ∀ a, a + 1 < L → (next L)^[posOf L a] (0, 1) = (a, a + 1) := by
  intro a
  induction a with
  | zero => intro _; rfl
  | succ a ih =>
    intro h
    have h1 : posOf L (a + 1) = 1 + (L - 2 - a) + posOf L a := by simp only [posOf]; omega
    rw [h1, Function.iterate_add_apply, ih (by omega), Function.iterate_add_apply, iterate_row _ (by omega)]
    simp only [Function.iterate_one]
    unfold next increment
    rw [if_pos (by simp; omega), if_neg (by simp; omega)]

theorem posOf_mono {L : Nat} {a b : Nat} (h : a ≤ b) : posOf L a ≤ posOf L b := by
  induction h with
  | refl => exact le_refl _
  | step _ ih => exact le_trans ih (by simp [posOf])

theorem posOf_total {L : Nat} (a : Nat) (h : a ≤ L - 1) : 2 * posOf L a + a * (a + 1) = 2 * a * L := by
  induction a with
  | zero => simp [posOf]
  | succ a ih =>
    have := ih (by omega)
    simp only [posOf]
    obtain ⟨d, rfl⟩ : ∃ d, L = a + 2 + d := ⟨L - a - 2, by omega⟩
    rw [show a + 2 + d - 1 - a = d + 1 by omega]
    nlinarith

theorem posOf_pairs {L : Nat} (hL : 2 ≤ L) : posOf L (L - 1) = L * (L - 1) / 2 := by
  have := posOf_total (L := L) (L - 1) (le_refl _)
  obtain ⟨d, rfl⟩ : ∃ d, L = d + 1 := ⟨L - 1, by omega⟩
  simp only [Nat.add_sub_cancel] at this ⊢
  have h2 : 2 * posOf (d + 1) d = (d + 1) * d := by nlinarith
  omega

/-- Each pair is reached from the first one in fewer steps than there are pairs. -/
theorem reach {L : Nat} (hL : 2 ≤ L) {a b : Nat} (hab : a < b) (hb : b < L) : ∃ k, k < L * (L - 1) / 2 ∧ (next L)^[k] (0, 1) = (a, b) := by
  refine ⟨(b - a - 1) + posOf L a, ?_, ?_⟩
  · have h1 : posOf L (a + 1) ≤ posOf L (L - 1) := posOf_mono (by omega)
    rw [posOf_pairs hL] at h1
    simp only [posOf] at h1
    omega
  · rw [Function.iterate_add_apply, iterate_pos hL a (by omega), iterate_row _ (by omega)]
    congr 1
    omega

theorem cycle {L : Nat} (hL : 2 ≤ L) : (next L)^[L * (L - 1) / 2] (0, 1) = (0, 1) := by
  have h1 : L * (L - 1) / 2 = 1 + posOf L (L - 2) := by
    rw [← posOf_pairs hL]
    obtain ⟨d, rfl⟩ : ∃ d, L = d + 2 := ⟨L - 2, by omega⟩
    simp [posOf]; omega
  rw [h1, Function.iterate_add_apply, iterate_pos hL _ (by omega)]
  simp only [Function.iterate_one]
  unfold next increment
  rw [if_pos (by simp; omega), if_pos (by simp; omega)]

/-- Starting anywhere, each pair is met once in as many steps as there are pairs. -/
theorem meet {L : Nat} (hL : 2 ≤ L) {s : Nat × Nat} (hs : PairOk L s) {a b : Nat} (hab : a < b) (hb : b < L) :
    ∃ k, k < L * (L - 1) / 2 ∧ (next L)^[k + 1] s = (a, b) := by
  obtain ⟨kt, t1, t2⟩ := reach hL hab hb
  rcases hs with rfl | ⟨h1, h2⟩
  · refine ⟨kt, t1, ?_⟩
    rw [Function.iterate_succ_apply]
    have : next L (0, 0) = (0, 1) := by
      unfold next increment
      rw [if_neg (by simp; omega)]
    rw [this, t2]
  · obtain ⟨ks, s1, s2⟩ := reach hL h1 h2
    have hs' : (next L)^[ks] (0, 1) = s := s2
    by_cases hlt : ks < kt
    · refine ⟨kt - ks - 1, by omega, ?_⟩
      rw [← hs', ← Function.iterate_add_apply, show kt - ks - 1 + 1 + ks = kt by omega, t2]
    · refine ⟨kt + L * (L - 1) / 2 - ks - 1, by omega, ?_⟩
      rw [← hs', ← Function.iterate_add_apply, show kt + L * (L - 1) / 2 - ks - 1 + 1 + ks = kt + L * (L - 1) / 2 by omega, Function.iterate_add_apply, cycle hL, t2]

end AlphaBetaSwap
end OpenGM
