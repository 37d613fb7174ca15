import Verif.Model.Functions
import Verif.Spec.FunctionTables
import Verif.Lemmas.FactorBinary
import Mathlib.Algebra.BigOperators.Group.List.Basic
import Mathlib.Tactic.Ring
import Mathlib.Tactic.Linarith
/-
The fallback implementations of FunctionBase, over functions given by tables.
-/
namespace OpenGM
namespace Functions
open Walkers Spec FactorOps

variable {V : Type}

/-- The function object computes `g` on the tuples of its shape, and its `size()` is their number. -/
structure Denotes (f : Fun V) (shape : List Nat) (g : List Nat → V) : Prop where
  shape_eq : f.shape = shape
  size_eq : f.size = shape.prod
  eval_eq : ∀ c, InShape shape c → f.eval c = some (g c)

theorem walkFold_visits {σ : Type} (next : List Nat → Option (List Nat)) (read : List Nat → Option V) (g : List Nat → V)
    (step : σ → List Nat → V → σ) :
    ∀ (l : List (List Nat)) (c : List Nat) (s : σ), Visits next c l → (∀ c ∈ l, read c = some (g c)) →
      walkFold next read step l.length c s = some (l.foldl (fun s c => step s c (g c)) s)
  | [], _, _, _, _ => rfl
  | c :: l, _, s, ⟨rfl, c', hc, h⟩, hr => by
    simp only [List.length_cons, walkFold, hr c (by simp), hc, List.foldl_cons]
    exact walkFold_visits next read g step l c' _ h (fun c hc => hr c (List.mem_cons_of_mem _ hc))

theorem forAll_spec {σ : Type} {f : Fun V} {shape : List Nat} {g : List Nat → V} (hp : Positive shape) (hf : Denotes f shape g)
    (step : σ → List Nat → V → σ) (s : σ) :
    forAllValuesInOrder f step s = some ((allTuples shape).foldl (fun s c => step s c (g c)) s) := by
  unfold forAllValuesInOrder
  rw [hf.shape_eq, hf.size_eq, ← length_allTuples]
  exact walkFold_visits _ _ g step _ _ s (visits_shapeWalker hp) (fun c hc => hf.eval_eq c ((mem_allTuples _ _).mp hc))

/-! Checks -/

theorem checkLoop_visits (next : List Nat → Option (List Nat)) (check : List Nat → Option Bool) (b : List Nat → Bool) :
    ∀ (l : List (List Nat)) (c : List Nat), Visits next c l → (∀ c ∈ l, check c = some (b c)) →
      checkLoop next check l.length c = some (l.all b)
  | [], _, _, _ => rfl
  | c :: l, _, ⟨rfl, c', hc, h⟩, hr => by
    simp only [List.length_cons, checkLoop, hr c (by simp), hc, List.all_cons]
    cases b c with
    | false => simp
    | true => simpa using checkLoop_visits next check b l c' h (fun c hc => hr c (List.mem_cons_of_mem _ hc))

theorem allM_spec {α : Type} (check : α → Option Bool) (b : α → Bool) : ∀ l : List α, (∀ a ∈ l, check a = some (b a)) →
    allM check l = some (l.all b)
  | [], _ => rfl
  | a :: l, h => by
    rw [allM, h a (by simp), List.all_cons]
    cases b a with
    | false => simp
    | true => simpa using allM_spec check b l (fun a ha => h a (List.mem_cons_of_mem _ ha))

theorem near_iff [CommRing V] [LinearOrder V] [IsStrictOrderedRing V] (tol : Option V) (x y : V) :
    isNumericEqual tol x y = true ↔ Near tol x y := by
  unfold isNumericEqual Near
  cases tol with
  | none => simp
  | some t =>
    simp only
    split
    · rename_i h
      rw [decide_eq_true_iff, abs_sub_comm, abs_of_pos (by linarith)]
    · rename_i h
      rw [decide_eq_true_iff, abs_of_nonneg (by linarith)]

theorem sameShape_iff : ∀ s t : List Nat, s.length = t.length → (sameShape s t = true ↔ s = t)
  | [], [], _ => by simp [sameShape]
  | a :: s, b :: t, h => by
    have ih := sameShape_iff s t (by simpa using h)
    unfold sameShape
    by_cases hab : a = b
    · simp [hab, ih]
    · simp [hab]

theorem eqFun_spec [CommRing V] [LinearOrder V] [IsStrictOrderedRing V] {tol : Option V} {fa fb : Fun V} {sa sb : List Nat}
    {ga gb : List Nat → V} (hpa : Positive sa) (ha : Denotes fa sa ga) (hb : Denotes fb sb gb) :
    ∃ r, eqFun tol fa fb = some r ∧ (r = true ↔ sa = sb ∧ ∀ c, InShape sa c → Near tol (ga c) (gb c)) := by
  unfold eqFun
  rw [ha.shape_eq, hb.shape_eq]
  by_cases hl : sa.length = sb.length
  · rw [if_pos hl]
    by_cases hs : sa = sb
    · rw [if_pos ((sameShape_iff _ _ hl).mpr hs)]
      subst hs
      rw [ha.size_eq, ← length_allTuples, checkLoop_visits _ _ (fun c => isNumericEqual tol (ga c) (gb c)) _ _ (visits_shapeWalker hpa)]
      · refine ⟨_, rfl, ?_⟩
        simp only [List.all_eq_true, true_and, mem_allTuples, near_iff]
      · intro c hc
        have := (mem_allTuples _ _).mp hc
        simp only [ha.eval_eq c this, hb.eval_eq c this]
    · rw [if_neg (by rw [sameShape_iff _ _ hl]; exact hs)]
      exact ⟨false, rfl, by simp [hs]⟩
  · rw [if_neg hl]
    refine ⟨false, rfl, ?_⟩
    simp only [Bool.false_eq_true, false_iff, not_and]
    intro h; subst h; exact absurd rfl hl

/-! Accumulations -/

theorem foldl_accMin [LinearOrder V] [CommRing V] (g : List Nat → V) : ∀ (l : List (List Nat)) (a : V),
    (∀ c ∈ l, l.foldl (fun s c => accMin s (g c)) a ≤ g c) ∧ l.foldl (fun s c => accMin s (g c)) a ≤ a ∧
      (l.foldl (fun s c => accMin s (g c)) a = a ∨ ∃ c ∈ l, g c = l.foldl (fun s c => accMin s (g c)) a)
  | [], a => by simp
  | c :: l, a => by
    obtain ⟨h1, h2, h3⟩ := foldl_accMin g l (accMin a (g c))
    have ha : accMin a (g c) ≤ a ∧ accMin a (g c) ≤ g c ∧ (accMin a (g c) = a ∨ accMin a (g c) = g c) := by
      unfold accMin
      split
      · rename_i h; exact ⟨le_refl _, h.le, Or.inl rfl⟩
      · rename_i h; exact ⟨not_lt.mp h, le_refl _, Or.inr rfl⟩
    simp only [List.foldl_cons]
    refine ⟨?_, h2.trans ha.1, ?_⟩
    · intro c' hc'
      rcases List.mem_cons.mp hc' with rfl | hc'
      · exact h2.trans ha.2.1
      · exact h1 c' hc'
    · rcases h3 with h3 | ⟨c', hc', h3⟩
      · rw [h3]
        rcases ha.2.2 with h | h
        · exact Or.inl h
        · exact Or.inr ⟨c, by simp, h.symm⟩
      · exact Or.inr ⟨c', List.mem_cons_of_mem _ hc', h3⟩

theorem foldl_accMax [LinearOrder V] [CommRing V] (g : List Nat → V) : ∀ (l : List (List Nat)) (a : V),
    (∀ c ∈ l, g c ≤ l.foldl (fun s c => accMax s (g c)) a) ∧ a ≤ l.foldl (fun s c => accMax s (g c)) a ∧
      (l.foldl (fun s c => accMax s (g c)) a = a ∨ ∃ c ∈ l, g c = l.foldl (fun s c => accMax s (g c)) a)
  | [], a => by simp
  | c :: l, a => by
    obtain ⟨h1, h2, h3⟩ := foldl_accMax g l (accMax a (g c))
    have ha : a ≤ accMax a (g c) ∧ g c ≤ accMax a (g c) ∧ (accMax a (g c) = a ∨ accMax a (g c) = g c) := by
      unfold accMax
      split
      · rename_i h; exact ⟨le_refl _, h.le, Or.inl rfl⟩
      · rename_i h; exact ⟨not_lt.mp h, le_refl _, Or.inr rfl⟩
    simp only [List.foldl_cons]
    refine ⟨?_, ha.1.trans h2, ?_⟩
    · intro c' hc'
      rcases List.mem_cons.mp hc' with rfl | hc'
      · exact ha.2.1.trans h2
      · exact h1 c' hc'
    · rcases h3 with h3 | ⟨c', hc', h3⟩
      · rw [h3]
        rcases ha.2.2 with h | h
        · exact Or.inl h
        · exact Or.inr ⟨c, by simp, h.symm⟩
      · exact Or.inr ⟨c', List.mem_cons_of_mem _ hc', h3⟩

theorem zeros_inShape {shape : List Nat} (hp : Positive shape) : InShape shape (List.replicate shape.length 0) := by
  obtain ⟨rest, h⟩ := zeros_head shape hp
  exact (mem_allTuples _ _).mp (h ▸ List.mem_cons_self)

section Ring
variable [CommRing V] [LinearOrder V]

theorem min_spec {f : Fun V} {shape : List Nat} {g : List Nat → V} (hp : Positive shape) (hf : Denotes f shape g) :
    ∃ m, min f = some m ∧ IsLeast (valueSet shape g) m := by
  have h0 := zeros_inShape hp
  unfold min
  rw [hf.shape_eq, hf.eval_eq _ h0]
  simp only
  rw [forAll_spec hp hf]
  refine ⟨_, rfl, ?_⟩
  obtain ⟨h1, h2, h3⟩ := foldl_accMin g (allTuples shape) (g (List.replicate shape.length 0))
  constructor
  · rcases h3 with h | ⟨c, hc, h⟩
    · exact ⟨_, h0, h.symm⟩
    · exact ⟨c, (mem_allTuples _ _).mp hc, h⟩
  · rintro v ⟨c, hc, rfl⟩
    exact h1 c ((mem_allTuples _ _).mpr hc)

theorem max_spec {f : Fun V} {shape : List Nat} {g : List Nat → V} (hp : Positive shape) (hf : Denotes f shape g) :
    ∃ m, max f = some m ∧ IsGreatest (valueSet shape g) m := by
  have h0 := zeros_inShape hp
  unfold max
  rw [hf.shape_eq, hf.eval_eq _ h0]
  simp only
  rw [forAll_spec hp hf]
  refine ⟨_, rfl, ?_⟩
  obtain ⟨h1, h2, h3⟩ := foldl_accMax g (allTuples shape) (g (List.replicate shape.length 0))
  constructor
  · rcases h3 with h | ⟨c, hc, h⟩
    · exact ⟨_, h0, h.symm⟩
    · exact ⟨c, (mem_allTuples _ _).mp hc, h⟩
  · rintro v ⟨c, hc, rfl⟩
    exact h1 c ((mem_allTuples _ _).mpr hc)

theorem foldl_minMax (g : List Nat → V) : ∀ (l : List (List Nat)) (a b : V),
    l.foldl (fun s c => minMaxStep s (g c)) (a, b) =
      (l.foldl (fun s c => accMin s (g c)) a, l.foldl (fun s c => accMax s (g c)) b)
  | [], _, _ => rfl
  | c :: l, a, b => by
    simp only [List.foldl_cons]
    rw [← foldl_minMax g l]
    congr 1
    unfold minMaxStep accMin accMax
    rcases lt_trichotomy (g c) a with h | h | h <;> rcases lt_trichotomy (g c) b with h' | h' | h' <;>
      simp [h, h', h.not_gt, h'.not_gt] <;> simp_all [not_lt_of_gt]

theorem minMax_spec {f : Fun V} {shape : List Nat} {g : List Nat → V} (hp : Positive shape) (hf : Denotes f shape g) :
    ∃ m M, minMax f = some (m, M) ∧ IsLeast (valueSet shape g) m ∧ IsGreatest (valueSet shape g) M := by
  have h0 := zeros_inShape hp
  obtain ⟨m, hm, h1⟩ := min_spec hp hf
  obtain ⟨M, hM, h2⟩ := max_spec hp hf
  refine ⟨m, M, ?_, h1, h2⟩
  unfold min at hm
  unfold max at hM
  unfold minMax
  rw [hf.shape_eq, hf.eval_eq _ h0] at hm hM ⊢
  simp only at hm hM ⊢
  rw [forAll_spec hp hf] at hm hM ⊢
  rw [foldl_minMax]
  simp only [Option.some.injEq] at hm hM ⊢
  rw [hm, hM]

theorem foldl_add (g : List Nat → V) : ∀ (l : List (List Nat)) (a : V), l.foldl (fun s c => s + g c) a = a + (l.map g).sum
  | [], _ => by simp
  | c :: l, a => by
    rw [List.foldl_cons, foldl_add g l, List.map_cons, List.sum_cons]; ring

theorem foldl_mul (g : List Nat → V) : ∀ (l : List (List Nat)) (a : V), l.foldl (fun s c => s * g c) a = a * (l.map g).prod
  | [], _ => by simp
  | c :: l, a => by
    rw [List.foldl_cons, foldl_mul g l, List.map_cons, List.prod_cons]; ring

theorem sum_spec {f : Fun V} {shape : List Nat} {g : List Nat → V} (hp : Positive shape) (hf : Denotes f shape g) :
    sum f = some (((allTuples shape).map g).sum) := by
  unfold sum; rw [forAll_spec hp hf, foldl_add]; simp

theorem product_spec {f : Fun V} {shape : List Nat} {g : List Nat → V} (hp : Positive shape) (hf : Denotes f shape g) :
    product f = some (((allTuples shape).map g).prod) := by
  unfold product; rw [forAll_spec hp hf, foldl_mul]; simp

end Ring

/-! Counting -/

theorem sum_ite [CommRing V] (p : List Nat → Prop) [DecidablePred p] (e n : V) : ∀ l : List (List Nat),
    (l.map (fun c => if p c then e else n)).sum = n * ((l.length - l.countP (fun c => decide (p c)) : Nat) : V)
      + e * (l.countP (fun c => decide (p c)) : V)
  | [] => by simp
  | c :: l => by
    have ih := sum_ite p e n l
    have hle : l.countP (fun c => decide (p c)) ≤ l.length := List.countP_le_length
    rw [List.map_cons, List.sum_cons, ih, List.countP_cons, List.length_cons]
    by_cases h : p c
    · simp only [h, if_true, decide_true]
      rw [show l.length + 1 - (l.countP (fun c => decide (p c)) + 1) = l.length - l.countP (fun c => decide (p c)) by omega]
      push_cast; ring
    · simp only [h, if_false, decide_false, Bool.false_eq_true, Nat.add_zero]
      rw [show l.length + 1 - l.countP (fun c => decide (p c)) = (l.length - l.countP (fun c => decide (p c))) + 1 by omega]
      push_cast; ring

theorem prod_ite [CommRing V] (p : List Nat → Prop) [DecidablePred p] (e n : V) : ∀ l : List (List Nat),
    (l.map (fun c => if p c then e else n)).prod = n ^ (l.length - l.countP (fun c => decide (p c)))
      * e ^ (l.countP (fun c => decide (p c)))
  | [] => by simp
  | c :: l => by
    have ih := prod_ite p e n l
    have hle : l.countP (fun c => decide (p c)) ≤ l.length := List.countP_le_length
    rw [List.map_cons, List.prod_cons, ih, List.countP_cons, List.length_cons]
    by_cases h : p c
    · simp only [h, if_true, decide_true]
      rw [show l.length + 1 - (l.countP (fun c => decide (p c)) + 1) = l.length - l.countP (fun c => decide (p c)) by omega]
      ring
    · simp only [h, if_false, decide_false, Bool.false_eq_true, Nat.add_zero]
      rw [show l.length + 1 - l.countP (fun c => decide (p c)) = (l.length - l.countP (fun c => decide (p c))) + 1 by omega]
      ring

theorem count_range (b : Nat) : ∀ n : Nat, (List.range n).countP (fun a => decide (a = b)) = if b < n then 1 else 0
  | 0 => by simp
  | n + 1 => by
    rw [List.range_succ, List.countP_append, count_range b n]
    simp only [List.countP_singleton, decide_eq_true_eq]
    split <;> split <;> split <;> omega

theorem allTuples_single (n : Nat) : allTuples [n] = (List.range n).map (fun d => [d]) := by simp [allTuples]

theorem sum_lt (n1 : Nat) : ∀ n2 : Nat, ((List.range n2).map (fun b => if b < n1 then 1 else 0)).sum = Nat.min n1 n2
  | 0 => by simp
  | n2 + 1 => by
    rw [List.range_succ, List.map_append, List.sum_append, sum_lt n1 n2]
    simp only [List.map_cons, List.map_nil, List.sum_cons, List.sum_nil]
    split
    · show Nat.min _ _ + _ = Nat.min _ _
      simp only [Nat.min_def]; split <;> split <;> omega
    · simp only [Nat.min_def]; split <;> split <;> omega

/-- Number of equal pairs. -/
theorem count_pairs (n1 n2 : Nat) : (allTuples [n1, n2]).countP (fun c => decide (c[0]? = c[1]?)) = Nat.min n1 n2 := by
  rw [allTuples, List.countP_flatMap, allTuples_single, List.map_map, ← sum_lt]
  congr 1
  apply List.map_congr_left
  intro b _
  simp only [Function.comp, List.countP_map]
  rw [← count_range]
  apply List.countP_congr
  intro a _
  simp

theorem inShape_two {n1 n2 : Nat} {c : List Nat} : InShape [n1, n2] c ↔ ∃ a b, c = [a, b] ∧ a < n1 ∧ b < n2 := by
  constructor
  · intro h
    match c, h with
    | [a, b], h => exact ⟨a, b, rfl, by simpa [InShape] using h⟩
  · rintro ⟨a, b, rfl, h1, h2⟩
    simp [InShape, h1, h2]

end Functions
end OpenGM
