import Verif.Model.FieldOfExperts
import Verif.Spec.FieldOfExperts
import Mathlib.Tactic.Ring
import Mathlib.Algebra.Ring.Int.Defs
/-
C84: the field of experts function.
-/
namespace OpenGM
namespace FoE
open OpenGM.Spec
variable {R : Type}

/-- The object was made from these filters (all of length `k`), weights and number of labels, by the constructors, and evaluated any number of times. -/
inductive Made [CommRing R] (filters : List (List R)) (alphas : List R) (n k : Nat) : Fn R → Prop where
  | vectors {f} : ofVectors filters.flatten alphas n = some f → Made filters alphas n k f
  | iterators {f} (rest rest' : List R) : ofIterators (filters.flatten ++ rest) (alphas ++ rest') n k filters.length = some f → Made filters alphas n k f
  | eval {f g : Fn R} {half : R} {log : R → R} {ls : List Nat} {v : R} : Made filters alphas n k f → FoE.eval half log f ls = some (v, g) → Made filters alphas n k g

theorem flatten_length {filters : List (List R)} {k : Nat} (h : ∀ r ∈ filters, r.length = k) : filters.flatten.length = filters.length * k := by
  induction filters with
  | nil => simp
  | cons r rs ih =>
    simp only [List.flatten_cons, List.length_append, List.length_cons]
    rw [ih (fun r' hr' => h r' (by simp [hr'])), h r (by simp)]
    ring

theorem eval_frame [CommRing R] {half : R} {log : R → R} {f g : Fn R} {ls : List Nat} {v : R} (h : eval half log f ls = some (v, g)) :
    ∃ l, fillLabels ls (List.range f.order) f.l = some l ∧ g = { f with l := l } := by
  unfold eval at h
  rcases e : fillLabels ls (List.range f.order) f.l with _ | l
  · simp [e] at h
  · rw [e] at h
    simp only at h
    rcases e2 : valLoop half log f l (List.range f.alphas.length) 0 0 with _ | w
    · simp [e2] at h
    · rw [e2] at h
      simp only [Option.some.injEq, Prod.mk.injEq] at h
      exact ⟨l, rfl, h.2.symm⟩

theorem fillLabels_length [CommRing R] (ls : List Nat) : ∀ (js : List Nat) (l l' : List R), fillLabels ls js l = some l' → l'.length = l.length := by
  intro js
  induction js with
  | nil => intro l l' h; simp only [fillLabels] at h; cases h; rfl
  | cons j js ih =>
    intro l l' h
    simp only [fillLabels] at h
    rcases e : ls[j]? with _ | x
    · simp [e] at h
    · rw [e] at h
      simp only at h
      rcases e2 : setAt l j (x : R) with _ | l1
      · simp [e2] at h
      · rw [e2] at h
        have := ih l1 l' h
        rw [this]
        unfold setAt at e2
        split at e2
        · cases e2; simp
        · cases e2

theorem made_inv [CommRing R] {filters : List (List R)} {alphas : List R} {n k : Nat} (hr : ∀ r ∈ filters, r.length = k) (ha : alphas.length = filters.length)
    {f : Fn R} (h : Made filters alphas n k f) : f.experts = filters.flatten ∧ f.alphas = alphas ∧ f.numLabels = n ∧ f.order = k ∧ f.l.length = k := by
  induction h with
  | vectors h =>
    unfold ofVectors at h
    split at h
    · cases h
    · rename_i h0
      have : filters.flatten.length / alphas.length = k := by
        rw [flatten_length hr, ha]
        exact Nat.mul_div_cancel_left k (by omega)
      rw [this] at h
      cases h
      simp
  | iterators rest rest' h =>
    have h1 : readRange (k * filters.length) (filters.flatten ++ rest) = some filters.flatten := by
      have hl := flatten_length hr
      unfold readRange
      rw [Nat.mul_comm, ← hl]
      simp
    have h2 : readRange filters.length (alphas ++ rest') = some alphas := by
      unfold readRange
      rw [← ha]
      simp
    simp only [ofIterators, h1, h2] at h
    cases h
    simp
  | eval _ he ih =>
    obtain ⟨l, h1, rfl⟩ := eval_frame he
    refine ⟨ih.1, ih.2.1, ih.2.2.1, ih.2.2.2.1, ?_⟩
    rw [fillLabels_length _ _ _ _ h1]
    exact ih.2.2.2.2

theorem fillLabels_spec [CommRing R] (ls : List Nat) : ∀ (js : List Nat) (l : List R), (∀ j ∈ js, j < ls.length ∧ j < l.length) →
    ∃ l', fillLabels ls js l = some l' ∧ l'.length = l.length ∧ ∀ (j : Nat), l'[j]? = if j ∈ js then (ls[j]?).map (fun (x : Nat) => (x : R)) else l[j]? := by
  intro js
  induction js with
  | nil => intro l _; exact ⟨l, rfl, rfl, by simp⟩
  | cons j js ih =>
    intro l h
    obtain ⟨h1, h2⟩ := h j (by simp)
    obtain ⟨l', e, hl, hv⟩ := ih (l.set j (ls[j] : R)) (by intro j' hj'; simpa using h j' (by simp [hj']))
    refine ⟨l', by simp [fillLabels, h1, setAt, h2, e], by simpa using hl, ?_⟩
    intro i
    rw [hv i]
    by_cases hi : i ∈ js
    · simp [hi]
    · simp only [hi, if_false, List.mem_cons, or_false]
      by_cases hij : i = j
      · subst hij
        simp [h1, h2]
      · simp [hij, List.getElem?_set, Ne.symm hij]

theorem fillLabels_all [CommRing R] {ls : List Nat} {l : List R} {k : Nat} (hk : k ≤ ls.length) (hl : l.length = k) :
    fillLabels ls (List.range k) l = some ((ls.take k).map (fun (x : Nat) => (x : R))) := by
  obtain ⟨l', e, hl', hv⟩ := fillLabels_spec (R := R) ls (List.range k) l (by
    intro j hj
    have := List.mem_range.mp hj
    omega)
  rw [e]
  congr 1
  apply List.ext_getElem?
  intro j
  rw [hv j]
  by_cases hj : j < k
  · simp [hj, List.getElem?_take]
  · simp [hj, List.getElem?_take, List.getElem?_eq_none (show l.length ≤ j by omega)]

theorem dotLoop_spec [CommRing R] (pre post : List R) : ∀ (row l : List R) (lpre : List R) (acc : R), row.length = l.length →
    dotLoop (pre ++ row ++ post) (lpre ++ l) (List.range' lpre.length l.length) acc pre.length = some (acc + (List.zipWith (· * ·) row l).sum, pre.length + row.length) := by
  intro row
  induction row generalizing pre with
  | nil =>
    intro l lpre acc h
    have : l = [] := List.eq_nil_of_length_eq_zero h.symm
    subst this
    simp [dotLoop]
  | cons x row ih =>
    intro l lpre acc h
    rcases l with _ | ⟨y, l⟩
    · simp at h
    · have h1 : (pre ++ x :: row ++ post)[pre.length]? = some x := by simp
      have h2 : (lpre ++ y :: l)[lpre.length]? = some y := by simp
      rw [List.length_cons, List.range'_succ, dotLoop, h1, h2]
      have := ih (pre ++ [x]) l (lpre ++ [y]) (acc + x * y) (by simpa using h)
      simp only [List.append_assoc, List.cons_append, List.nil_append, List.length_append, List.length_cons, List.length_nil, Nat.zero_add] at this ⊢
      simp only [this, List.zipWith_cons_cons, List.sum_cons, Option.some.injEq, Prod.mk.injEq]
      constructor
      · ring
      · omega

theorem valLoop_spec [CommRing R] (half : R) (log : R → R) (f : Fn R) (l : List R) (hl : l.length = f.order) :
    ∀ (filters : List (List R)) (as : List R) (pre : List R) (apre : List R) (acc : R), (∀ r ∈ filters, r.length = f.order) → as.length = filters.length →
      f.experts = pre ++ filters.flatten → f.alphas = apre ++ as →
      valLoop half log f l (List.range' apre.length as.length) acc pre.length =
        some (acc + (List.zipWith (fun filter a => a * log (1 + half * (List.zipWith (· * ·) filter l).sum ^ 2)) filters as).sum) := by
  intro filters
  induction filters with
  | nil =>
    intro as pre apre acc _ h _ _
    have : as = [] := List.eq_nil_of_length_eq_zero h
    subst this
    simp [valLoop]
  | cons r rs ih =>
    intro as pre apre acc hr h he ha
    rcases as with _ | ⟨a, as⟩
    · simp at h
    · have h1 : dotLoop f.experts l (List.range f.order) 0 pre.length = some ((List.zipWith (· * ·) r l).sum, pre.length + r.length) := by
        have hrl : r.length = l.length := by rw [hl]; exact hr r (by simp)
        have := dotLoop_spec pre rs.flatten r l [] 0 hrl
        rw [he, List.range_eq_range', ← hl]
        simpa [List.append_assoc] using this
      have h2 : f.alphas[apre.length]? = some a := by rw [ha]; simp
      rw [List.length_cons, List.range'_succ, valLoop, h1]
      simp only [h2]
      have := ih as (pre ++ r) (apre ++ [a]) (acc + a * log (1 + half * (List.zipWith (· * ·) r l).sum * (List.zipWith (· * ·) r l).sum))
        (fun r' hr' => hr r' (by simp [hr'])) (by simpa using h) (by rw [he]; simp) (by rw [ha]; simp)
      simp only [List.length_append, List.length_cons, List.length_nil, Nat.zero_add] at this
      rw [this]
      simp only [List.zipWith_cons_cons, List.sum_cons, Option.some.injEq]
      have hp : half * (List.zipWith (· * ·) r l).sum * (List.zipWith (· * ·) r l).sum = half * (List.zipWith (· * ·) r l).sum ^ 2 := by ring
      rw [hp]
      ring

theorem zipWith_cast [CommRing R] : ∀ (row : List R) (ls : List Nat),
    (List.zipWith (· * ·) row (ls.map (fun (x : Nat) => (x : R)))).sum = response row ls := by
  intro row
  induction row with
  | nil => intro ls; simp [response]
  | cons x row ih =>
    intro ls
    rcases ls with _ | ⟨y, ls⟩
    · simp [response]
    · have := ih ls
      simp only [response] at this ⊢
      simp [this]

theorem sizeLoop_eq (n : Nat) : ∀ (k s : Nat), sizeLoop n k s = s * n ^ k := by
  intro k
  induction k with
  | zero => intro s; simp [sizeLoop]
  | succ k ih => intro s; rw [sizeLoop, ih, Nat.pow_succ]; ring

/-- C84, values: for any filters of the same length, any weights and any number of earlier evaluations, the value at labels is the energy of the model, and the object can be evaluated again; dimension, shape and size are those of a table over
`k` variables with `n` labels. -/
theorem C84_value [CommRing R] {filters : List (List R)} {alphas : List R} {n k : Nat} (hr : ∀ r ∈ filters, r.length = k) (ha : alphas.length = filters.length)
    {f : Fn R} (h : Made filters alphas n k f) (half : R) (log : R → R) {ls : List Nat} (hl : ls.length = k) (rest : List Nat) :
    (∃ g, eval half log f (ls ++ rest) = some (expertEnergy half log filters alphas ls, g) ∧ Made filters alphas n k g) ∧ info f = (k, n, n ^ k) := by
  obtain ⟨h1, h2, h3, h4, h5⟩ := made_inv hr ha h
  have e1 : fillLabels (ls ++ rest) (List.range f.order) f.l = some (ls.map (fun (x : Nat) => (x : R))) := by
    rw [h4, fillLabels_all (by simp; omega) h5, ← hl]
    simp
  have e2 : valLoop half log f (ls.map (fun (x : Nat) => (x : R))) (List.range f.alphas.length) 0 0 = some (expertEnergy half log filters alphas ls) := by
    have := valLoop_spec half log f (ls.map (fun (x : Nat) => (x : R))) (by rw [h4]; simpa using hl) filters alphas [] [] 0 (by rw [h4]; exact hr) ha (by simpa using h1) (by simpa using h2)
    rw [List.range_eq_range', h2]
    simp only [List.length_nil] at this
    rw [this, zero_add]
    simp only [expertEnergy, zipWith_cast]
  have e3 : eval half log f (ls ++ rest) = some (expertEnergy half log filters alphas ls, { f with l := ls.map (fun (x : Nat) => (x : R)) }) := by
    simp [eval, e1, e2]
  refine ⟨⟨_, e3, Made.eval h e3⟩, ?_⟩
  simp [info, sizeLoop_eq, h3, h4]

/-- C84, constructors: with at least one expert both constructors succeed; the one with iterators also without experts. -/
theorem C84_made [CommRing R] {filters : List (List R)} {alphas : List R} (n : Nat) {k : Nat} (hr : ∀ r ∈ filters, r.length = k) (ha : alphas.length = filters.length) :
    (filters ≠ [] → ∃ f, ofVectors filters.flatten alphas n = some f) ∧
      ∀ rest rest', ∃ f, ofIterators (filters.flatten ++ rest) (alphas ++ rest') n k filters.length = some f := by
  constructor
  · intro h
    have : alphas.length ≠ 0 := by rw [ha]; simpa using h
    exact ⟨_, by rw [ofVectors, if_neg this]⟩
  · intro rest rest'
    have h1 : k * filters.length ≤ filters.flatten.length := by rw [flatten_length hr, Nat.mul_comm]
    refine ⟨⟨(filters.flatten ++ rest).take (k * filters.length), (alphas ++ rest').take filters.length, n, k, List.replicate k 0⟩, ?_⟩
    unfold ofIterators readRange
    rw [if_pos (by rw [List.length_append]; omega), if_pos (by rw [List.length_append]; omega)]

/-- C84, serialization: with at least one expert, the announced sizes are right and reading back what was written, with anything behind it, gives a function made from the same filters, weights and number of labels. -/
theorem C84_roundtrip_partial [CommRing R] {filters : List (List R)} {alphas : List R} {n k : Nat} (hr : ∀ r ∈ filters, r.length = k) (ha : alphas.length = filters.length) (hne : filters ≠ [])
    {f : Fn R} (h : Made filters alphas n k f) (rest : List Nat) (rest' : List R) :
    sizes f = ((serialize f).1.length, (serialize f).2.length) ∧ ∃ g, deserialize ((serialize f).1 ++ rest) ((serialize f).2 ++ rest') = some g ∧ Made filters alphas n k g := by
  obtain ⟨h1, h2, h3, h4, h5⟩ := made_inv hr ha h
  refine ⟨by simp [sizes, serialize], ?_⟩
  obtain ⟨g, hg⟩ := (C84_made n hr ha).1 hne
  refine ⟨g, ?_, Made.vectors hg⟩
  have e1 : readRange (f.alphas.length * f.order) (f.experts ++ (f.alphas ++ rest')) = some filters.flatten := by
    have hl := flatten_length hr
    unfold readRange
    rw [h2, h4, ha, ← hl, h1]
    simp
  have e2 : readRange f.alphas.length ((f.experts ++ (f.alphas ++ rest')).drop (f.alphas.length * f.order)) = some alphas := by
    have hl := flatten_length hr
    unfold readRange
    rw [h4, h2, h1, ha, ← hl, List.drop_left, ← ha]
    simp
  simp only [deserialize, serialize, List.cons_append, List.nil_append, List.append_assoc, List.getElem?_cons_zero, List.getElem?_cons_succ, e1, e2, h3]
  exact hg

/-- C84, violated: a function without experts (its value is 0) can be made and written, but reading it back divides by zero, and so does its construction from vectors. -/
theorem C84_violated_noExperts [CommRing R] (n k : Nat) (e : List R) :
    (∃ f : Fn R, ofIterators [] [] n k 0 = some f ∧ Made [] [] n k f ∧ deserialize (serialize f).1 (serialize f).2 = none) ∧ ofVectors e ([] : List R) n = none := by
  refine ⟨⟨⟨[], [], n, k, List.replicate k 0⟩, by simp [ofIterators, readRange], Made.iterators [] [] (by simp [ofIterators, readRange]), ?_⟩, by simp [ofVectors]⟩
  simp [serialize, deserialize, readRange, ofVectors]

/-! ### the default function -/

/-- The constants of fieldofexperts.hxx 95-99, in units of 10^-16. -/
def defaultFilters : List (List Int) :=
  [[-582774013402734, 339010363051084, -501593018104054, 745568557931712],
   [492112815304123, -307820846538285, -1232472309484240, 1048123308615570],
   [562633568728865, 152832583489560, -576215592718086, -139673758425540]]

/-- C84, the default function, what holds: setDefault succeeds on every object and leaves 3 experts, the given weights, 4 variables and 256 labels, and the value at labels is the energy of a model with these weights; but see C84_violated_default for the filters. -/
theorem C84_default_partial [CommRing R] (w0 w1 w2 a0 a1 a2 a3 b0 b1 b2 b3 c0 c1 c2 c3 : R) {f : Fn R} (hf : f.l.length = f.order) :
    ∃ g, setDefault [w0, w1, w2] [[a0, a1, a2, a3], [b0, b1, b2, b3], [c0, c1, c2, c3]] f = some g ∧ info g = (4, 256, 256 ^ 4) ∧
      ∀ (half : R) (log : R → R) (x0 x1 x2 x3 : Nat), ∃ g', eval half log g [x0, x1, x2, x3] =
        some (expertEnergy half log [[a0, b0, c0, a1], [b1, c1, a2, b2], [c2, a3, b3, c3]] [w0, w1, w2] [x0, x1, x2, x3], g') := by
  have hlen : ∀ (m : Nat) (v : List R), (resizeTo m v).length = m := by
    intro m v
    simp [resizeTo]
    omega
  obtain ⟨ex, hex⟩ : ∃ ex, resizeTo (3 * 4) f.experts = ex := ⟨_, rfl⟩
  have hexl := hlen (3 * 4) f.experts
  rw [hex] at hexl
  obtain ⟨al, hal⟩ : ∃ al, resizeTo 3 f.alphas = al := ⟨_, rfl⟩
  have hall := hlen 3 f.alphas
  rw [hal] at hall
  have hll := hlen 4 f.l
  match ex, hexl with
  | [e0, e1, e2, e3, e4, e5, e6, e7, e8, e9, e10, e11], _ =>
    match al, hall with
    | [l0, l1, l2], _ =>
      refine ⟨⟨[a0, b0, c0, a1, b1, c1, a2, b2, c2, a3, b3, c3], [w0, w1, w2], 256, 4, resizeTo 4 f.l⟩, ?_, by simp [info, sizeLoop], ?_⟩
      · unfold setDefault
        rw [hex, hal]
        rfl
      · intro half log x0 x1 x2 x3
        have hm : eval half log (⟨[a0, b0, c0, a1, b1, c1, a2, b2, c2, a3, b3, c3], [w0, w1, w2], 256, 4, resizeTo 4 f.l⟩ : Fn R) [x0, x1, x2, x3] =
            some (expertEnergy half log [[a0, b0, c0, a1], [b1, c1, a2, b2], [c2, a3, b3, c3]] [w0, w1, w2] [x0, x1, x2, x3],
              ⟨[a0, b0, c0, a1, b1, c1, a2, b2, c2, a3, b3, c3], [w0, w1, w2], 256, 4, [x0, x1, x2, x3].map (fun (x : Nat) => (x : R))⟩) := by
          have e1 := fillLabels_all (R := R) (ls := [x0, x1, x2, x3]) (k := 4) (by simp) hll
          have e2 := valLoop_spec half log (⟨[a0, b0, c0, a1, b1, c1, a2, b2, c2, a3, b3, c3], [w0, w1, w2], 256, 4, resizeTo 4 f.l⟩ : Fn R)
            ([x0, x1, x2, x3].map (fun (x : Nat) => (x : R))) rfl [[a0, b0, c0, a1], [b1, c1, a2, b2], [c2, a3, b3, c3]] [w0, w1, w2] [] [] 0 (by simp) rfl rfl rfl
          simp only [List.length_nil, zero_add, zipWith_cast] at e2
          simp only [eval, e1]
          rw [List.range_eq_range']
          simp only [List.take] at e2 ⊢
          rw [e2]
          rfl
        exact ⟨_, hm⟩

/-- C84, violated: setDefault stores the matrix of filters column by column, but operator() reads it row by row, as the constructors document. So the filters of the default function are not the ones written in the code: each of those
gives almost zero on the labels 1, 1, 1, 1 (at most 0.00005), the ones used 0.08, -0.19 and 0.11. -/
theorem C84_violated_default (w : List Int) (hw : w.length = 3) :
    ∃ g, setDefault w defaultFilters (empty : Fn Int) = some g ∧
      g.experts = ([[-582774013402734, 492112815304123, 562633568728865, 339010363051084],
        [-307820846538285, 152832583489560, -501593018104054, -1232472309484240],
        [-576215592718086, 745568557931712, 1048123308615570, -139673758425540]] : List (List Int)).flatten ∧
      g.experts ≠ defaultFilters.flatten ∧
      defaultFilters.map (fun r => response r [1, 1, 1, 1]) = [211889476008, -57032102832, -423198925201] ∧
      ([[-582774013402734, 492112815304123, 562633568728865, 339010363051084],
        [-307820846538285, 152832583489560, -501593018104054, -1232472309484240],
        [-576215592718086, 745568557931712, 1048123308615570, -139673758425540]] : List (List Int)).map (fun r => response r [1, 1, 1, 1]) =
        [810982733681338, -1889053590637019, 1077802515403656] := by
  match w, hw with
  | [a, b, c], _ =>
    refine ⟨_, rfl, rfl, ?_, by decide, by decide⟩
    show ([[-582774013402734, 492112815304123, 562633568728865, 339010363051084],
        [-307820846538285, 152832583489560, -501593018104054, -1232472309484240],
        [-576215592718086, 745568557931712, 1048123308615570, -139673758425540]] : List (List Int)).flatten ≠ defaultFilters.flatten
    decide

/-! ### concrete cases -/

example : ∃ f : Fn Int, ofVectors [[1, 2], [3, -1], [0, 5]].flatten [1, 1, 2] 4 = some f ∧ Made [[1, 2], [3, -1], [0, 5]] [1, 1, 2] 4 2 f ∧
    info f = (2, 4, 16) ∧ ∃ g, eval 1 id f [3, 1] = some (expertEnergy 1 id [[1, 2], [3, -1], [0, 5]] [1, 1, 2] [3, 1], g) := by
  have hr : ∀ r ∈ ([[1, 2], [3, -1], [0, 5]] : List (List Int)), r.length = 2 := by simp
  obtain ⟨f, hf⟩ := (C84_made (R := Int) (alphas := [1, 1, 2]) 4 hr rfl).1 (by simp)
  obtain ⟨⟨g, hg, _⟩, hi⟩ := C84_value hr rfl (Made.vectors hf) 1 id (ls := [3, 1]) rfl []
  exact ⟨f, hf, Made.vectors hf, hi, g, hg⟩

example : expertEnergy (R := Int) 1 id [[1, 2], [3, -1]] [1, 2] [3, 1] = (1 + 25) + 2 * (1 + 64) := by decide

example : ∃ f : Fn Int, ofVectors [[1, 2], [3, -1]].flatten [1, 1] 4 = some f ∧ ∃ g, deserialize (serialize f).1 (serialize f).2 = some g ∧ Made [[1, 2], [3, -1]] [1, 1] 4 2 g := by
  have hr : ∀ r ∈ ([[1, 2], [3, -1]] : List (List Int)), r.length = 2 := by simp
  obtain ⟨f, hf⟩ := (C84_made (R := Int) (alphas := [1, 1]) 4 hr rfl).1 (by simp)
  have := (C84_roundtrip_partial hr rfl (by simp) (Made.vectors hf) [] []).2
  simp only [List.append_nil] at this
  exact ⟨f, hf, this⟩

example : (empty : Fn Int).l.length = (empty : Fn Int).order := rfl

end FoE
end OpenGM
