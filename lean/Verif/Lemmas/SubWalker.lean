import Verif.Lemmas.Walkers
/-
Lemmas about SubShapeWalker.
-/
namespace OpenGM
open Spec
namespace Walkers

/-- Fixed value (or none) of each of the next `len` positions from `d` on, given the remaining fixed positions and values. -/
def maskFrom : Nat → Nat → List Nat → List Nat → List (Option Nat)
  | 0, _, _, _ => []
  | len + 1, d, i :: r, v :: rv => if i = d then some v :: maskFrom len (d + 1) r rv else none :: maskFrom len (d + 1) (i :: r) (v :: rv)
  | len + 1, d, _, _ => none :: maskFrom len (d + 1) [] []

/-- The extents of the free positions. -/
def freeShape : List (Option Nat) → List Nat → List Nat
  | none :: m, n :: s => n :: freeShape m s
  | some _ :: m, _ :: s => freeShape m s
  | _, _ => []

/-- The full tuple for a tuple of free entries. -/
def embed : List (Option Nat) → List Nat → List Nat
  | [], _ => []
  | none :: m, x :: t => x :: embed m t
  | none :: _, [] => []
  | some v :: m, t => v :: embed m t

/-- `r`, `rv` are possible remaining fixed positions and values from `d` on. -/
structure Rem (d : Nat) (r rv : List Nat) : Prop where
  len : r.length = rv.length
  sorted : r.Pairwise (· < ·)
  ge : ∀ i ∈ r, d ≤ i

theorem Rem.tail {d i v : Nat} {r rv : List Nat} (h : Rem d (i :: r) (v :: rv)) : Rem (i + 1) r rv :=
  ⟨by simpa using h.len, (List.pairwise_cons.mp h.sorted).2, fun j hj => (List.pairwise_cons.mp h.sorted).1 j hj⟩

theorem Rem.skip {d i v : Nat} {r rv : List Nat} (h : Rem d (i :: r) (v :: rv)) (hne : i ≠ d) : Rem (d + 1) (i :: r) (v :: rv) := by
  refine ⟨h.len, h.sorted, ?_⟩
  have hi := h.ge i (by simp)
  intro j hj
  simp only [List.mem_cons] at hj
  rcases hj with rfl | hj
  · omega
  · have := (List.pairwise_cons.mp h.sorted).1 j hj
    omega

theorem foldl_noMatch (d : Nat) : ∀ (r : List Nat) (s : Bool × Nat), (∀ i ∈ r, d ≠ i) →
    r.foldl (fun (s : Bool × Nat) i => if d = i then (true, s.2 + 1) else s) s = s
  | [], _, _ => rfl
  | i :: r, s, h => by
    rw [List.foldl_cons, if_neg (h i (by simp))]
    exact foldl_noMatch d r s (fun j hj => h j (by simp [hj]))

theorem fixedScan_nil {idx : List Nat} {d counter : Nat} (h : idx.drop counter = []) : fixedScan idx d counter = (false, counter) := by
  simp [fixedScan, h]

theorem fixedScan_hit {idx r rv : List Nat} {d v counter : Nat} (h : idx.drop counter = d :: r) (hr : Rem d (d :: r) (v :: rv)) :
    fixedScan idx d counter = (true, counter + 1) := by
  rw [fixedScan, h, List.foldl_cons, if_pos rfl, foldl_noMatch]
  intro i hi
  have := hr.tail.ge i hi
  omega

theorem fixedScan_miss {idx r rv : List Nat} {d i v counter : Nat} (h : idx.drop counter = i :: r) (hne : i ≠ d)
    (hr : Rem d (i :: r) (v :: rv)) : fixedScan idx d counter = (false, counter) := by
  rw [fixedScan, h, foldl_noMatch]
  intro j hj
  have := (hr.skip hne).ge j hj
  omega

theorem fixedFirst_eq {idx r rv : List Nat} {d counter : Nat} (h : idx.drop counter = r) (hr : Rem d r rv) :
    fixedFirst idx d counter = fixedScan idx d counter := by
  cases r with
  | nil => rw [fixedScan_nil h, fixedFirst, h]; simp
  | cons i r =>
    cases rv with
    | nil => have := hr.len; simp at this
    | cons v rv =>
      by_cases hi : i = d
      · subst hi
        rw [fixedScan_hit h hr, fixedFirst, h]
        simp
      · rw [fixedScan_miss h hi hr, fixedFirst, h, if_neg]
        rw [List.any_eq_true]
        rintro ⟨j, hj, hd⟩
        have := (hr.skip hi).ge j hj
        have hd := of_decide_eq_true hd
        omega

theorem drop_succ_of {α : Type} {l r : List α} {k : Nat} {a : α} (h : l.drop k = a :: r) : l.drop (k + 1) = r := by
  rw [← List.drop_drop, h]
  rfl

theorem freeShape_length_le : ∀ (m : List (Option Nat)) (s : List Nat), s = [] → freeShape m s = []
  | [], _, h => by subst h; rfl
  | none :: _, _, h => by subst h; rfl
  | some _ :: _, _, h => by subst h; rfl

/-- One step of the loop, from position `pre.length` on. -/
theorem subLoop_aux (idx : List Nat) : ∀ (s t t' preN pre r rv : List Nat) (counter : Nat), pre.length = preN.length →
    idx.drop counter = r → Rem pre.length r rv → InShape (freeShape (maskFrom s.length pre.length r rv) s) t →
    odoNext (freeShape (maskFrom s.length pre.length r rv) s) t = some t' →
    subLoop (preN ++ s) idx (List.range' pre.length s.length) counter (pre ++ embed (maskFrom s.length pre.length r rv) t) =
      some (pre ++ embed (maskFrom s.length pre.length r rv) t') := by
  intro s
  induction s with
  | nil =>
    intro t t' preN pre r rv counter hp hdrop hr hs h
    rw [freeShape_length_le _ _ rfl] at h
    simp [odoNext] at h
  | cons n s ih =>
    intro t t' preN pre r rv counter hp hdrop hr hs h
    rw [List.length_cons, List.range'_succ]
    unfold subLoop
    -- the case in which position `pre.length` is free
    have free : ∀ (r rv : List Nat), idx.drop counter = r → Rem (pre.length + 1) r rv →
        fixedScan idx pre.length counter = (false, counter) →
        InShape (n :: freeShape (maskFrom s.length (pre.length + 1) r rv) s) t →
        odoNext (n :: freeShape (maskFrom s.length (pre.length + 1) r rv) s) t = some t' →
        (match fixedScan idx pre.length counter with
          | (true, counter') => subLoop (preN ++ n :: s) idx (List.range' (pre.length + 1) s.length) counter'
              (pre ++ embed (none :: maskFrom s.length (pre.length + 1) r rv) t)
          | (false, counter') =>
            match (pre ++ embed (none :: maskFrom s.length (pre.length + 1) r rv) t)[pre.length]?, (preN ++ n :: s)[pre.length]? with
            | some x, some n' =>
              if x ≠ n' - 1 then setAt (pre ++ embed (none :: maskFrom s.length (pre.length + 1) r rv) t) pre.length (x + 1)
              else if pre.length ≠ (preN ++ n :: s).length - 1 then
                (setAt (pre ++ embed (none :: maskFrom s.length (pre.length + 1) r rv) t) pre.length 0).bind
                  (subLoop (preN ++ n :: s) idx (List.range' (pre.length + 1) s.length) counter')
              else setAt (pre ++ embed (none :: maskFrom s.length (pre.length + 1) r rv) t) pre.length (x + 1)
            | _, _ => none) = some (pre ++ embed (none :: maskFrom s.length (pre.length + 1) r rv) t') := by
      intro r rv hdrop hr hscan hs h
      rw [hscan]
      simp only
      cases t with
      | nil => simp [InShape] at hs
      | cons x t =>
        simp only [embed]
        have h1 : ∀ l : List Nat, (pre ++ x :: l)[pre.length]? = some x := by intro l; simp
        have h2 : (preN ++ n :: s)[pre.length]? = some n := by rw [hp]; simp
        rw [h1, h2]
        simp only
        simp only [odoNext] at h
        have hx := hs.1
        by_cases hd : x + 1 < n
        · rw [if_pos hd] at h
          cases h
          rw [if_pos (by omega), setAt_append]
          rfl
        · rw [if_neg hd] at h
          rw [if_neg (by omega)]
          obtain ⟨u, hu, rfl⟩ := Option.map_eq_some_iff.mp h
          have hne : s ≠ [] := by
            rintro rfl
            rw [freeShape_length_le _ _ rfl] at hu
            simp [odoNext] at hu
          have : 0 < s.length := List.length_pos_iff.mpr hne
          rw [if_pos (by simp; omega), setAt_append]
          simp only [Option.bind_some]
          have := ih t u (preN ++ [n]) (pre ++ [0]) r rv counter (by simp [hp]) hdrop (by simpa using hr)
            (by simpa using hs.2) (by simpa using hu)
          simpa [embed] using this
    cases r with
    | nil =>
      have hm : maskFrom (s.length + 1) pre.length [] rv = none :: maskFrom s.length (pre.length + 1) [] [] := by
        simp [maskFrom]
      rw [List.length_cons, hm] at hs h
      rw [hm]
      exact free [] [] hdrop ⟨rfl, by simp, by simp⟩ (fixedScan_nil hdrop) hs h
    | cons i r =>
      cases rv with
      | nil => have := hr.len; simp at this
      | cons v rv =>
        by_cases hi : i = pre.length
        · have hm : maskFrom (s.length + 1) pre.length (i :: r) (v :: rv) = some v :: maskFrom s.length (pre.length + 1) r rv := by
            simp [maskFrom, hi]
          rw [List.length_cons, hm] at hs h
          rw [hm]
          subst hi
          rw [fixedScan_hit hdrop hr]
          simp only
          simp only [freeShape] at hs h
          have := ih t t' (preN ++ [n]) (pre ++ [v]) r rv (counter + 1) (by simp [hp]) (drop_succ_of hdrop)
            (by simpa using hr.tail) (by simpa using hs) (by simpa using h)
          simpa [embed] using this
        · have hm : maskFrom (s.length + 1) pre.length (i :: r) (v :: rv) =
              none :: maskFrom s.length (pre.length + 1) (i :: r) (v :: rv) := by
            simp [maskFrom, hi]
          rw [List.length_cons, hm] at hs h
          rw [hm]
          exact free (i :: r) (v :: rv) hdrop (hr.skip hi) (fixedScan_miss hdrop hi hr) hs h

theorem subNext_spec {shape idx vals t t' : List Nat} (hr : Rem 0 idx vals)
    (hs : InShape (freeShape (maskFrom shape.length 0 idx vals) shape) t)
    (h : odoNext (freeShape (maskFrom shape.length 0 idx vals) shape) t = some t') :
    subNext shape idx (embed (maskFrom shape.length 0 idx vals) t) = some (embed (maskFrom shape.length 0 idx vals) t') := by
  have := subLoop_aux idx shape t t' [] [] idx vals 0 rfl rfl hr hs h
  rw [subNext, List.range_eq_range']
  simpa using this

theorem subSizeLoop_aux (idx : List Nat) : ∀ (s preN r rv : List Nat) (counter result : Nat),
    idx.drop counter = r → Rem preN.length r rv →
    subSizeLoop (preN ++ s) idx (List.range' preN.length s.length) counter result =
      some (result * (freeShape (maskFrom s.length preN.length r rv) s).prod) := by
  intro s
  induction s with
  | nil => intro preN r rv counter result _ _; simp [subSizeLoop, freeShape_length_le]
  | cons n s ih =>
    intro preN r rv counter result hdrop hr
    rw [List.length_cons, List.range'_succ]
    unfold subSizeLoop
    rw [fixedFirst_eq hdrop hr]
    have h2 : (preN ++ n :: s)[preN.length]? = some n := by simp
    cases r with
    | nil =>
      rw [fixedScan_nil hdrop]
      simp only [h2]
      have := ih (preN ++ [n]) [] [] counter (result * n) hdrop ⟨rfl, by simp, by simp⟩
      simpa [maskFrom, freeShape, mul_assoc] using this
    | cons i r =>
      cases rv with
      | nil => have := hr.len; simp at this
      | cons v rv =>
        by_cases hi : i = preN.length
        · subst hi
          rw [fixedScan_hit hdrop hr]
          simp only
          have := ih (preN ++ [n]) r rv (counter + 1) result (drop_succ_of hdrop) (by simpa using hr.tail)
          simpa [maskFrom, freeShape, mul_assoc] using this
        · rw [fixedScan_miss hdrop hi hr]
          simp only [h2]
          have := ih (preN ++ [n]) (i :: r) (v :: rv) counter (result * n) hdrop (by simpa using hr.skip hi)
          simpa [maskFrom, hi, freeShape, mul_assoc] using this

theorem subSize_spec {shape idx vals : List Nat} (hr : Rem 0 idx vals) :
    subSize shape idx = some (freeShape (maskFrom shape.length 0 idx vals) shape).prod := by
  have := subSizeLoop_aux idx shape [] idx vals 0 1 rfl hr
  rw [subSize, List.range_eq_range']
  simpa using this

theorem writeFixed_aux : ∀ (s pre r rv : List Nat), Rem pre.length r rv → (∀ i ∈ r, i < pre.length + s.length) →
    writeFixed r rv (pre ++ List.replicate s.length 0) = some (pre ++ embed (maskFrom s.length pre.length r rv)
      (List.replicate (freeShape (maskFrom s.length pre.length r rv) s).length 0)) := by
  intro s
  induction s with
  | nil =>
    intro pre r rv hr hlt
    cases r with
    | nil => simp [writeFixed, maskFrom, embed]
    | cons i r =>
      have h1 := hr.ge i (by simp)
      have h2 := hlt i (by simp)
      simp at h2; omega
  | cons n s ih =>
    intro pre r rv hr hlt
    cases r with
    | nil =>
      have := ih (pre ++ [0]) [] [] ⟨rfl, by simp, by simp⟩ (by simp)
      simpa [writeFixed, maskFrom, embed, freeShape, List.replicate_succ] using this
    | cons i r =>
      cases rv with
      | nil => have := hr.len; simp at this
      | cons v rv =>
        by_cases hi : i = pre.length
        · subst hi
          have := ih (pre ++ [v]) r rv (by simpa using hr.tail)
            (by intro j hj; have := hlt j (by simp [hj]); simp at this ⊢; omega)
          unfold writeFixed
          rw [List.length_cons, List.replicate_succ, setAt_append]
          simpa [maskFrom, embed, freeShape] using this
        · have := ih (pre ++ [0]) (i :: r) (v :: rv) (by simpa using hr.skip hi)
            (by intro j hj; have := hlt j (by simpa using hj); simp at this ⊢; omega)
          simpa [maskFrom, hi, embed, freeShape, List.replicate_succ] using this

theorem subInit_spec {shape idx vals : List Nat} (hr : Rem 0 idx vals) (hlt : ∀ i ∈ idx, i < shape.length) :
    subInit shape.length idx vals = some (embed (maskFrom shape.length 0 idx vals)
      (List.replicate (freeShape (maskFrom shape.length 0 idx vals) shape).length 0)) := by
  have := writeFixed_aux shape [] idx vals hr (by simpa using hlt)
  simpa [subInit] using this

/-- Which tuples are embedded free tuples. -/
theorem embed_mem : ∀ (s : List Nat) (d : Nat) (r rv c : List Nat), Rem d r rv →
    (∀ i j v n : Nat, r[i]? = some (d + j) → rv[i]? = some v → s[j]? = some n → v < n) →
    ((∃ t, InShape (freeShape (maskFrom s.length d r rv) s) t ∧ c = embed (maskFrom s.length d r rv) t) ↔
      (InShape s c ∧ ∀ i j v : Nat, r[i]? = some (d + j) → rv[i]? = some v → j < s.length → c[j]? = some v)) := by
  intro s
  induction s with
  | nil =>
    intro d r rv c hr _
    simp only [List.length_nil, maskFrom, freeShape, embed]
    constructor
    · rintro ⟨t, _, rfl⟩; exact ⟨trivial, by intro i j v _ _ h; simp at h⟩
    · rintro ⟨h, _⟩
      cases c with
      | nil => exact ⟨[], trivial, rfl⟩
      | cons a c => simp [InShape] at h
  | cons n s ih =>
    intro d r rv c hr hval
    have free : ∀ r rv : List Nat, Rem (d + 1) r rv →
        (∀ i j v n' : Nat, r[i]? = some (d + j) → rv[i]? = some v → (n :: s)[j]? = some n' → v < n') →
        ((∃ t, InShape (n :: freeShape (maskFrom s.length (d + 1) r rv) s) t ∧ c = embed (none :: maskFrom s.length (d + 1) r rv) t) ↔
        (InShape (n :: s) c ∧ ∀ i j v : Nat, r[i]? = some (d + j) → rv[i]? = some v → j < (n :: s).length → c[j]? = some v)) := by
      intro r rv hr hval
      have hge : ∀ i j v : Nat, r[i]? = some (d + j) → rv[i]? = some v → ∃ j', j = j' + 1 := by
        intro i j v h1 _
        have := hr.ge _ (List.mem_of_getElem? h1)
        exact ⟨j - 1, by omega⟩
      have hval' : ∀ i j v n : Nat, r[i]? = some (d + 1 + j) → rv[i]? = some v → s[j]? = some n → v < n := by
        intro i j v n' h1 h2 h3
        exact hval i (j + 1) v n' (by rw [h1]; congr 1; omega) h2 (by simpa using h3)
      constructor
      · rintro ⟨t, ht, rfl⟩
        cases t with
        | nil => simp [InShape] at ht
        | cons x t =>
          have := (ih (d + 1) r rv _ hr hval').mp ⟨t, ht.2, rfl⟩
          refine ⟨⟨ht.1, this.1⟩, ?_⟩
          intro i j v h1 h2 h3
          obtain ⟨j', rfl⟩ := hge i j v h1 h2
          simp only [embed, List.getElem?_cons_succ]
          exact this.2 i j' v (by rw [h1]; congr 1; omega) h2 (by simpa using h3)
      · rintro ⟨h, hf⟩
        cases c with
        | nil => simp [InShape] at h
        | cons x c =>
          obtain ⟨t, ht, rfl⟩ := (ih (d + 1) r rv c hr hval').mpr ⟨h.2, by
            intro i j v h1 h2 h3
            have := hf i (j + 1) v (by rw [h1]; congr 1; omega) h2 (by simpa using h3)
            simpa using this⟩
          exact ⟨x :: t, ⟨h.1, ht⟩, rfl⟩
    cases r with
    | nil =>
      have hm : maskFrom (s.length + 1) d [] rv = none :: maskFrom s.length (d + 1) [] [] := by simp [maskFrom]
      rw [List.length_cons, hm]
      have hrv : rv = [] := by cases rv with | nil => rfl | cons v rv => have := hr.len; simp at this
      subst hrv
      exact free [] [] ⟨rfl, by simp, by simp⟩ (by simp)
    | cons i r =>
      cases rv with
      | nil => have := hr.len; simp at this
      | cons v rv =>
        by_cases hi : i = d
        · subst hi
          have hm : maskFrom (s.length + 1) i (i :: r) (v :: rv) = some v :: maskFrom s.length (i + 1) r rv := by
            simp [maskFrom]
          rw [List.length_cons, hm]
          simp only [freeShape]
          have hv : v < n := hval 0 0 v n (by simp) (by simp) (by simp)
          have hval' : ∀ k j w n : Nat, r[k]? = some (i + 1 + j) → rv[k]? = some w → s[j]? = some n → w < n := by
            intro k j w n' h1 h2 h3
            exact hval (k + 1) (j + 1) w n' (by rw [List.getElem?_cons_succ, h1]; congr 1; omega)
              (by simpa using h2) (by simpa using h3)
          constructor
          · rintro ⟨t, ht, rfl⟩
            have hh := (ih (i + 1) r rv _ hr.tail hval').mp ⟨t, ht, rfl⟩
            refine ⟨⟨hv, hh.1⟩, ?_⟩
            intro k j w h1 h2 h3
            cases k with
            | zero =>
              simp at h1 h2
              have : j = 0 := by omega
              subst this
              simp [embed, h2]
            | succ k =>
              simp only [List.getElem?_cons_succ] at h1 h2
              have := hr.tail.ge _ (List.mem_of_getElem? h1)
              obtain ⟨j', rfl⟩ : ∃ j', j = j' + 1 := ⟨j - 1, by omega⟩
              simp only [embed, List.getElem?_cons_succ]
              exact hh.2 k j' w (by rw [h1]; congr 1; omega) h2 (by simpa using h3)
          · rintro ⟨h, hf⟩
            cases c with
            | nil => simp [InShape] at h
            | cons x c =>
              have hx := hf 0 0 v (by simp) (by simp) (by simp)
              simp at hx
              subst hx
              obtain ⟨t, ht, rfl⟩ := (ih (i + 1) r rv c hr.tail hval').mpr ⟨h.2, by
                intro k j w h1 h2 h3
                have := hf (k + 1) (j + 1) w (by rw [List.getElem?_cons_succ, h1]; congr 1; omega) (by simpa using h2)
                  (by simpa using h3)
                simpa using this⟩
              exact ⟨t, ht, rfl⟩
        · have hm : maskFrom (s.length + 1) d (i :: r) (v :: rv) = none :: maskFrom s.length (d + 1) (i :: r) (v :: rv) := by
            simp [maskFrom, hi]
          rw [List.length_cons, hm]
          exact free (i :: r) (v :: rv) (hr.skip hi) (by simpa using hval)

theorem embed_injective : ∀ (m : List (Option Nat)) (s t u : List Nat), m.length = s.length → InShape (freeShape m s) t →
    InShape (freeShape m s) u → embed m t = embed m u → t = u
  | [], s, t, u, hl, ht, hu, _ => by
    cases s with
    | nil =>
      have h1 := inShape_length ht
      have h2 := inShape_length hu
      simp [freeShape] at h1 h2
      rw [h1, h2]
    | cons a s => simp at hl
  | o :: m, [], t, u, hl, _, _, _ => by simp at hl
  | none :: m, n :: s, t, u, hl, ht, hu, h => by
    cases t with
    | nil => simp [freeShape, InShape] at ht
    | cons x t =>
      cases u with
      | nil => simp [freeShape, InShape] at hu
      | cons y u =>
        simp only [embed, List.cons.injEq] at h
        rw [h.1, embed_injective m s t u (by simpa using hl) ht.2 hu.2 h.2]
  | some v :: m, n :: s, t, u, hl, ht, hu, h => by
    simp only [embed, List.cons.injEq, true_and] at h
    exact embed_injective m s t u (by simpa using hl) ht hu h

theorem maskFrom_length : ∀ (len d : Nat) (r rv : List Nat), (maskFrom len d r rv).length = len
  | 0, _, _, _ => rfl
  | len + 1, d, [], _ => by simp [maskFrom, maskFrom_length]
  | len + 1, d, _ :: _, [] => by simp [maskFrom, maskFrom_length]
  | len + 1, d, i :: r, v :: rv => by
    unfold maskFrom
    split <;> simp [maskFrom_length]

theorem freeShape_positive : ∀ (m : List (Option Nat)) (s : List Nat), Positive s → Positive (freeShape m s)
  | [], _, _ => by simp [freeShape, Positive]
  | none :: _, [], _ => by simp [freeShape, Positive]
  | some _ :: _, [], _ => by simp [freeShape, Positive]
  | none :: m, n :: s, h => by
    intro k hk
    simp only [freeShape, List.mem_cons] at hk
    rcases hk with rfl | hk
    · exact h _ (by simp)
    · exact freeShape_positive m s (fun a ha => h a (by simp [ha])) k hk
  | some _ :: m, n :: s, h => by
    intro k hk
    simp only [freeShape] at hk
    exact freeShape_positive m s (fun a ha => h a (by simp [ha])) k hk

/-- The free shape is the shape without the fixed positions. -/
theorem freeShape_eq : ∀ (s : List Nat) (d : Nat) (r rv : List Nat), Rem d r rv →
    freeShape (maskFrom s.length d r rv) s = ((s.zipIdx d).filter (fun e => !r.contains e.2)).map (fun e => e.1) := by
  intro s
  induction s with
  | nil => intro d r rv _; simp [maskFrom, freeShape]
  | cons n s ih =>
    intro d r rv hr
    cases r with
    | nil =>
      have := ih (d + 1) [] [] ⟨rfl, by simp, by simp⟩
      simp [maskFrom, freeShape, this]
    | cons i r =>
      cases rv with
      | nil => have := hr.len; simp at this
      | cons v rv =>
        by_cases hi : i = d
        · subst hi
          have := ih (i + 1) r rv hr.tail
          simp only [List.length_cons, maskFrom, if_pos, freeShape, this, List.zipIdx_cons]
          rw [List.filter_cons_of_neg (by simp)]
          congr 1
          apply List.filter_congr
          intro e he
          have : i + 1 ≤ e.2 := by
            have := List.mem_zipIdx he
            omega
          have hne : e.2 ≠ i := by omega
          simp [hne]
        · have := ih (d + 1) (i :: r) (v :: rv) (hr.skip hi)
          simp only [List.length_cons, maskFrom, if_neg hi, freeShape, this, List.zipIdx_cons]
          rw [List.filter_cons_of_pos, List.map_cons]
          have h2 := hr.skip hi
          simp only [List.contains_eq_mem, Bool.not_eq_true', decide_eq_false_iff_not]
          intro hmem
          have := h2.ge d hmem
          omega

/-- Leaving the fixed positions out of an embedded tuple. -/
theorem drop_embed : ∀ (s : List Nat) (d : Nat) (r rv t : List Nat), Rem d r rv → InShape (freeShape (maskFrom s.length d r rv) s) t →
    (((embed (maskFrom s.length d r rv) t).zipIdx d).filter (fun e => !r.contains e.2)).map (fun e => e.1) = t := by
  intro s
  induction s with
  | nil =>
    intro d r rv t hr ht
    have := inShape_length ht
    simp [maskFrom, freeShape] at this
    simp [maskFrom, embed, this]
  | cons n s ih =>
    intro d r rv t hr ht
    have hnot : ∀ {r rv : List Nat}, Rem (d + 1) r rv → (!r.contains d) = true := by
      intro r rv h
      simp only [List.contains_eq_mem, Bool.not_eq_true', decide_eq_false_iff_not]
      intro hmem
      have := h.ge d hmem
      omega
    cases r with
    | nil =>
      simp only [List.length_cons, maskFrom, freeShape] at ht ⊢
      cases t with
      | nil => simp [InShape] at ht
      | cons x t =>
        have := ih (d + 1) [] [] t ⟨rfl, by simp, by simp⟩ ht.2
        simp only [embed, List.zipIdx_cons]
        rw [List.filter_cons_of_pos (by simp), List.map_cons, this]
    | cons i r =>
      cases rv with
      | nil => have := hr.len; simp at this
      | cons v rv =>
        by_cases hi : i = d
        · subst hi
          simp only [List.length_cons, maskFrom, if_pos, freeShape, embed, List.zipIdx_cons] at ht ⊢
          rw [List.filter_cons_of_neg (by simp)]
          have := ih (i + 1) r rv t hr.tail ht
          rw [← this]
          congr 1
          rw [this]
          apply List.filter_congr
          intro e he
          have hm := List.mem_zipIdx he
          have hne : e.2 ≠ i := by omega
          simp [hne]
        · simp only [List.length_cons, maskFrom, if_neg hi, freeShape] at ht ⊢
          cases t with
          | nil => simp [InShape] at ht
          | cons x t =>
            have := ih (d + 1) (i :: r) (v :: rv) t (hr.skip hi) ht.2
            simp only [embed, List.zipIdx_cons]
            rw [List.filter_cons_of_pos, List.map_cons, this]
            exact hnot (hr.skip hi)

end Walkers
end OpenGM
