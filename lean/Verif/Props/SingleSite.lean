import Verif.Model.SingleSite
import Verif.Spec.SingleSite
import Mathlib.Data.List.Forall2
import Mathlib.Tactic.ByContra
/-
C83: functions of one variable that own their values (StaticSingleSiteFunction and DynamicSingleSiteFunction).
-/
namespace OpenGM
namespace SingleSite
open OpenGM.Spec
variable {V : Type}

/-- The object holds the array. -/
def Holds (f : Dyn V) (a : List (Option V)) : Prop := f.size = a.length ∧ (a ≠ [] → f.data = some a) ∧ (a = [] → f.data = none)

theorem holds_make (n : Nat) : Holds (make n : Dyn V) (List.replicate n none) := by
  unfold make Holds
  cases n <;> simp [List.replicate_succ]

theorem holds_makeFill (n : Nat) (v : V) : Holds (makeFill n v) (List.replicate n (some v)) := by
  unfold makeFill Holds
  cases n <;> simp [List.replicate_succ]

theorem copyData_new {a : List (Option V)} (h : a ≠ []) (d : List (Option V)) (hd : d.length = a.length) :
    copyData a.length (some a) (some d) = some (some a) := by
  unfold copyData
  have : a.length ≠ 0 := by simpa using h
  simp only [this, if_false, hd, Nat.le_refl, and_self, if_true]
  rw [List.take_length, ← hd, List.drop_length, List.append_nil]

theorem holds_cases {f : Dyn V} {a : List (Option V)} (h : Holds f a) :
    (a = [] ∧ f = ⟨none, 0⟩) ∨ (a ≠ [] ∧ f = ⟨some a, a.length⟩) := by
  obtain ⟨h1, h2, h3⟩ := h
  rcases f with ⟨d, s⟩
  simp only at h1 h2 h3
  by_cases ha : a = []
  · left; refine ⟨ha, ?_⟩; rw [h3 ha, h1, ha]; rfl
  · right; refine ⟨ha, ?_⟩; rw [h2 ha, h1]

theorem holds_empty : Holds (⟨none, 0⟩ : Dyn V) [] := ⟨rfl, by simp, by simp⟩
theorem holds_full {a : List (Option V)} (h : a ≠ []) : Holds (⟨some a, a.length⟩ : Dyn V) a := ⟨rfl, fun _ => rfl, fun h' => absurd h' h⟩

theorem holds_copy {f : Dyn V} {a : List (Option V)} (h : Holds f a) : ∃ g, copyOf f = some g ∧ Holds g a := by
  rcases holds_cases h with ⟨rfl, rfl⟩ | ⟨ha, rfl⟩
  · exact ⟨_, rfl, holds_empty⟩
  · refine ⟨⟨some a, a.length⟩, ?_, holds_full ha⟩
    have : a.length ≠ 0 := by simpa using ha
    simp only [copyOf, this, ne_eq, not_false_eq_true, if_true]
    rw [copyData_new ha _ (by simp)]

theorem holds_assign {f g : Dyn V} {a b : List (Option V)} (hf : Holds f a) (hg : Holds g b) (hv : a = [] → b = []) :
    ∃ h, assignFrom f g = some h ∧ Holds h b := by
  rcases holds_cases hf with ⟨rfl, rfl⟩ | ⟨ha, rfl⟩
  · have := hv rfl
    subst this
    rcases holds_cases hg with ⟨_, rfl⟩ | ⟨h, _⟩
    · exact ⟨_, rfl, holds_empty⟩
    · exact absurd rfl h
  · have ha' : a.length ≠ 0 := by simpa using ha
    rcases holds_cases hg with ⟨rfl, rfl⟩ | ⟨hb, rfl⟩
    · refine ⟨⟨none, 0⟩, ?_, holds_empty⟩
      have : 0 < a.length := by omega
      simp [assignFrom, assignSize, free, copyData, this]
    · refine ⟨⟨some b, b.length⟩, ?_, holds_full hb⟩
      have hb' : b.length ≠ 0 := by simpa using hb
      have e : copyData b.length (some b) (some (List.replicate b.length none)) = some (some b) := copyData_new hb _ (by simp)
      have e2 : copyData b.length (some b) (some b) = some (some b) := copyData_new hb _ rfl
      rcases Nat.lt_trichotomy a.length b.length with h | h | h
      · simp [assignFrom, assignSize, free, h, e, e2]
      · have e3 : copyData b.length (some b) (some a) = some (some b) := copyData_new hb _ h
        simp [assignFrom, assignSize, h, e3]
      · have : ¬ a.length < b.length := by omega
        simp [assignFrom, assignSize, free, h, this, hb, e, e2]

theorem holds_resize {f : Dyn V} {a : List (Option V)} (hf : Holds f a) {n : Nat} (hv : a = [] → n = 0) :
    ∃ h, resize f n = some h ∧ Holds h (if a.length = n then a else List.replicate n none) := by
  rcases holds_cases hf with ⟨rfl, rfl⟩ | ⟨ha, rfl⟩
  · have := hv rfl
    subst this
    exact ⟨_, rfl, holds_empty⟩
  · by_cases h : a.length = n
    · subst h
      exact ⟨⟨some a, a.length⟩, by simp [resize], by simpa using holds_full ha⟩
    · by_cases hn : n = 0
      · subst hn
        exact ⟨⟨none, 0⟩, by simp [resize, free, ha], by simpa [ha] using holds_empty⟩
      · refine ⟨⟨some (List.replicate n none), n⟩, by simp [resize, free, h, hn], ?_⟩
        rw [if_neg h]
        exact ⟨by simp, fun _ => rfl, fun h => absurd h (by simpa using hn)⟩

theorem holds_resizeFill {f : Dyn V} {a : List (Option V)} (hf : Holds f a) {n : Nat} (v : V) (hv : a = [] → n = 0) :
    ∃ h, resizeFill f n v = some h ∧ Holds h (List.replicate n (some v)) := by
  rcases holds_cases hf with ⟨rfl, rfl⟩ | ⟨ha, rfl⟩
  · have := hv rfl
    subst this
    exact ⟨_, rfl, holds_empty⟩
  · by_cases h : a.length = n
    · subst h
      refine ⟨⟨some (List.replicate a.length (some v)), a.length⟩, by simp [resizeFill, ha], ?_⟩
      exact ⟨by simp, fun _ => rfl, fun h => absurd h (by simpa using ha)⟩
    · by_cases hn : n = 0
      · subst hn
        exact ⟨⟨none, 0⟩, by simp [resizeFill, free, ha], holds_empty⟩
      · refine ⟨⟨some (List.replicate n (some v)), n⟩, by simp [resizeFill, free, h, hn], ?_⟩
        exact ⟨by simp, fun _ => rfl, fun h => absurd h (by simpa using hn)⟩

theorem holds_write {f : Dyn V} {a : List (Option V)} (hf : Holds f a) {k : Nat} (hk : k < a.length) (v : V) :
    ∃ h, write f k v = some h ∧ Holds h (a.set k (some v)) := by
  rcases holds_cases hf with ⟨rfl, rfl⟩ | ⟨ha, rfl⟩
  · simp at hk
  · refine ⟨⟨some (a.set k (some v)), a.length⟩, by simp [write, setAt, hk], ?_⟩
    exact ⟨by simp, fun _ => rfl, fun h => absurd h (by simpa using ha)⟩

theorem holds_read {f : Dyn V} {a : List (Option V)} (hf : Holds f a) (k : Nat) :
    read f k = (a[k]?).bind id := by
  rcases holds_cases hf with ⟨rfl, rfl⟩ | ⟨ha, rfl⟩
  · simp [read]
  · simp only [read]
    rcases h : a[k]? with _ | _ | v <;> rfl

theorem holds_destroy {f : Dyn V} {a : List (Option V)} (hf : Holds f a) : ∃ g, destroy f = some g := by
  rcases holds_cases hf with ⟨rfl, rfl⟩ | ⟨ha, rfl⟩
  · exact ⟨_, rfl⟩
  · have : a.length ≠ 0 := by simpa using ha
    exact ⟨⟨none, a.length⟩, by simp [destroy, this, free]⟩

/-- The objects of a program hold the arrays. -/
def HoldsAll (w : List (Dyn V)) (s : List (List (Option V))) : Prop := List.Forall₂ Holds w s

theorem holdsAll_get {w : List (Dyn V)} {s : List (List (Option V))} (h : HoldsAll w s) {i : Nat} (hi : i < s.length) :
    ∃ f a, w[i]? = some f ∧ s[i]? = some a ∧ Holds f a := by
  unfold HoldsAll at h
  induction h generalizing i with
  | nil => simp at hi
  | @cons f a w s hfa _ ih =>
    cases i with
    | zero => exact ⟨f, a, rfl, rfl, hfa⟩
    | succ i => simpa using ih (by simpa using hi)

theorem holdsAll_set {w : List (Dyn V)} {s : List (List (Option V))} (h : HoldsAll w s) (i : Nat) {f : Dyn V} {a : List (Option V)} (hf : Holds f a) :
    HoldsAll (w.set i f) (s.set i a) := by
  unfold HoldsAll at h ⊢
  induction h generalizing i with
  | nil => exact List.Forall₂.nil
  | cons hfa h' ih =>
    cases i with
    | zero => exact List.Forall₂.cons hf h'
    | succ i => exact List.Forall₂.cons hfa (ih i)

theorem holdsAll_snoc {w : List (Dyn V)} {s : List (List (Option V))} (h : HoldsAll w s) {f : Dyn V} {a : List (Option V)} (hf : Holds f a) :
    HoldsAll (w ++ [f]) (s ++ [a]) := by
  unfold HoldsAll at h ⊢
  induction h with
  | nil => exact List.Forall₂.cons hf List.Forall₂.nil
  | cons hfa _ ih => exact List.Forall₂.cons hfa ih

theorem set_self {α : Type} {l : List α} {i : Nat} {a : α} (h : l[i]? = some a) : l.set i a = l := by
  apply List.ext_getElem?
  intro k
  rw [List.getElem?_set]
  by_cases hk : i = k
  · subst hk
    have : i < l.length := by
      rcases Nat.lt_or_ge i l.length with h' | h'
      · exact h'
      · simp [List.getElem?_eq_none h'] at h
    rw [if_pos rfl, if_pos this, h]
  · rw [if_neg hk]

theorem step_holds {w : List (Dyn V)} {s : List (List (Option V))} (h : HoldsAll w s) (o : ArrayOp V) (hr : o.InRange s) (hg : ¬ o.GrowsEmpty s) :
    ∃ w', step w o = some w' ∧ HoldsAll w' (o.apply s) := by
  cases o with
  | make n => exact ⟨_, rfl, holdsAll_snoc h (holds_make n)⟩
  | makeFill n v => exact ⟨_, rfl, holdsAll_snoc h (holds_makeFill n v)⟩
  | copy i =>
    obtain ⟨f, a, e1, e2, hf⟩ := holdsAll_get h hr
    obtain ⟨g, e3, hgg⟩ := holds_copy hf
    refine ⟨w ++ [g], by simp [step, e1, e3], ?_⟩
    simp only [ArrayOp.apply, e2]
    exact holdsAll_snoc h hgg
  | assign i j =>
    obtain ⟨f, a, e1, e2, hf⟩ := holdsAll_get h hr.1
    obtain ⟨g, b, e3, e4, hgb⟩ := holdsAll_get h hr.2
    by_cases hij : i = j
    · subst hij
      refine ⟨w, by simp [step], ?_⟩
      simp only [ArrayOp.apply, e2]
      rw [set_self e2]
      exact h
    · obtain ⟨k, e5, hk⟩ := holds_assign hf hgb (by
        intro ha
        subst ha
        by_contra hb
        exact hg ⟨e2, by simpa [e4] using hb⟩)
      refine ⟨w.set i k, by simp [step, hij, e1, e3, e5], ?_⟩
      simp only [ArrayOp.apply, e4]
      exact holdsAll_set h i hk
  | resize i n =>
    obtain ⟨f, a, e1, e2, hf⟩ := holdsAll_get h hr
    obtain ⟨k, e5, hk⟩ := holds_resize hf (n := n) (by
        intro ha
        subst ha
        by_contra hb
        exact hg ⟨e2, hb⟩)
    refine ⟨w.set i k, by simp [step, e1, e5], ?_⟩
    simp only [ArrayOp.apply, e2]
    have := holdsAll_set h i hk
    by_cases hn : a.length = n
    · rw [if_pos hn] at this ⊢
      rwa [set_self e2] at this
    · rw [if_neg hn] at this ⊢
      exact this
  | resizeFill i n v =>
    obtain ⟨f, a, e1, e2, hf⟩ := holdsAll_get h hr
    obtain ⟨k, e5, hk⟩ := holds_resizeFill hf (n := n) v (by
        intro ha
        subst ha
        by_contra hb
        exact hg ⟨e2, hb⟩)
    exact ⟨w.set i k, by simp [step, e1, e5], holdsAll_set h i hk⟩
  | write i k v =>
    obtain ⟨a', ha', hk⟩ := hr
    have hi : i < s.length := by
      rcases Nat.lt_or_ge i s.length with h' | h'
      · exact h'
      · simp [List.getElem?_eq_none h'] at ha'
    obtain ⟨f, a, e1, e2, hf⟩ := holdsAll_get h hi
    rw [e2] at ha'
    cases ha'
    obtain ⟨g, e5, hk⟩ := holds_write hf hk v
    refine ⟨w.set i g, by simp [step, e1, e5], ?_⟩
    simp only [ArrayOp.apply, e2]
    exact holdsAll_set h i hk

/-- A program all of whose operations refer to existing objects and elements and never give a size to an empty object; `s` are the arrays before it and `s'` those after it. -/
inductive Program : List (ArrayOp V) → List (List (Option V)) → List (List (Option V)) → Prop where
  | nil (s) : Program [] s s
  | cons {o os s s'} : o.InRange s → ¬ o.GrowsEmpty s → Program os (o.apply s) s' → Program (o :: os) s s'

theorem run_holds {os : List (ArrayOp V)} {s s' : List (List (Option V))} (hp : Program os s s') :
    ∀ {w : List (Dyn V)}, HoldsAll w s → ∃ w', run os w = some w' ∧ HoldsAll w' s' := by
  induction hp with
  | nil s => exact fun h => ⟨_, rfl, h⟩
  | cons hr hg _ ih =>
    intro w h
    obtain ⟨w1, e1, h1⟩ := step_holds h _ hr hg
    obtain ⟨w2, e2, h2⟩ := ih h1
    exact ⟨w2, by simp [run, e1, e2], h2⟩

theorem destroyAll_holds {w : List (Dyn V)} {s : List (List (Option V))} (h : HoldsAll w s) : destroyAll w = some () := by
  unfold HoldsAll at h
  induction h with
  | nil => rfl
  | cons hfa _ ih =>
    obtain ⟨g, hg⟩ := holds_destroy hfa
    simp [destroyAll, hg, ih]

/-- C83, dynamic functions, what holds: in every program (any number of objects, any sequence of constructions, copies, assignments, `assign` and writes) that never gives a size to an empty object, nothing is undefined, every object behaves as
an array of its own (size, dimension, shape and every element that was written), and all objects can be destroyed at the end. -/
theorem C83_dynamic_partial {os : List (ArrayOp V)} {s : List (List (Option V))} (hp : Program os [] s) :
    ∃ w, run os [] = some w ∧ w.length = s.length ∧ destroyAll w = some () ∧
      ∀ (i : Nat) (a : List (Option V)), s[i]? = some a → ∃ f, w[i]? = some f ∧ info f = (a.length, 1, a.length) ∧ ∀ (k : Nat) (v : V), a[k]? = some (some v) → read f k = some v := by
  obtain ⟨w, e, h⟩ := run_holds hp (w := []) List.Forall₂.nil
  refine ⟨w, e, List.Forall₂.length_eq h, destroyAll_holds h, ?_⟩
  intro i a ha
  have hi : i < s.length := by
    rcases Nat.lt_or_ge i s.length with h' | h'
    · exact h'
    · simp [List.getElem?_eq_none h'] at ha
  obtain ⟨f, b, e1, e2, hf⟩ := holdsAll_get h hi
  rw [e2] at ha
  cases ha
  refine ⟨f, e1, ?_, ?_⟩
  · simp [info, hf.1]
  · intro k v hk
    rw [holds_read hf, hk]
    rfl

/-- C83, dynamic functions, violated: a function of size zero has no valid pointer, and giving it a size (by `operator=` from a function that is not empty, by `assign(n)` or by `assign(n, v)`) deletes that pointer: in every program
the first such operation has undefined behaviour. The smallest program is `f(); f.assign(1)`; after `f(1); f.assign(0); f.assign(1)` the same block is deleted twice. -/
theorem C83_violated_grow {os : List (ArrayOp V)} {s : List (List (Option V))} (hp : Program os [] s) {o : ArrayOp V} (hr : o.InRange s) (hg : o.GrowsEmpty s) :
    run (os ++ [o]) [] = none := by
  obtain ⟨w, e, h⟩ := run_holds hp (w := []) List.Forall₂.nil
  have happ : ∀ (os : List (ArrayOp V)) (w0 : List (Dyn V)), run os w0 = some w → step w o = none → run (os ++ [o]) w0 = none := by
    intro os
    induction os with
    | nil => intro w0 h0 h1; simp only [run] at h0; cases h0; simp [run, h1]
    | cons p os ih =>
      intro w0 h0 h1
      simp only [run, List.cons_append] at h0 ⊢
      rcases hs : step w0 p with _ | w1
      · rfl
      · rw [hs] at h0
        exact ih w1 h0 h1
  refine happ os [] e ?_
  cases o with
  | make n => exact absurd hg (by simp [ArrayOp.GrowsEmpty])
  | makeFill n v => exact absurd hg (by simp [ArrayOp.GrowsEmpty])
  | copy i => exact absurd hg (by simp [ArrayOp.GrowsEmpty])
  | write i k v => exact absurd hg (by simp [ArrayOp.GrowsEmpty])
  | assign i j =>
    obtain ⟨f, a, e1, e2, hf⟩ := holdsAll_get h hr.1
    obtain ⟨g, b, e3, e4, hgb⟩ := holdsAll_get h hr.2
    obtain ⟨h1, h2⟩ := hg
    rw [e2] at h1
    cases h1
    have hij : i ≠ j := by
      rintro rfl
      exact h2 e2
    rcases holds_cases hf with ⟨_, rfl⟩ | ⟨h', _⟩
    · rcases holds_cases hgb with ⟨rfl, _⟩ | ⟨hb, rfl⟩
      · exact absurd e4 h2
      · have : 0 < b.length := by
          rcases b with _ | _
          · exact absurd rfl hb
          · simp
        simp [step, hij, e1, e3, assignFrom, assignSize, free, this]
    · exact absurd rfl h'
  | resize i n =>
    obtain ⟨f, a, e1, e2, hf⟩ := holdsAll_get h hr
    obtain ⟨h1, h2⟩ := hg
    rw [e2] at h1
    cases h1
    rcases holds_cases hf with ⟨_, rfl⟩ | ⟨h', _⟩
    · simp [step, e1, resize, free, Ne.symm h2]
    · exact absurd rfl h'
  | resizeFill i n v =>
    obtain ⟨f, a, e1, e2, hf⟩ := holdsAll_get h hr
    obtain ⟨h1, h2⟩ := hg
    rw [e2] at h1
    cases h1
    rcases holds_cases hf with ⟨_, rfl⟩ | ⟨h', _⟩
    · simp [step, e1, resizeFill, free, Ne.symm h2]
    · exact absurd rfl h'

/-! ### serialization of dynamic functions -/

theorem readAll_from {f : Dyn V} {a : List V} (hf : Holds f (a.map some)) : ∀ ks : List Nat, (∀ k ∈ ks, k < a.length) →
    readAll f ks = some (ks.filterMap (fun k => a[k]?)) := by
  intro ks
  induction ks with
  | nil => intro _; rfl
  | cons k ks ih =>
    intro hk
    have h1 : k < a.length := hk k (by simp)
    have h2 := ih (fun k' hk' => hk k' (by simp [hk']))
    have h3 : read f k = some a[k] := by rw [holds_read hf]; simp [h1]
    simp [readAll, h2, h3, h1]

theorem filterMap_range (a : List V) : (List.range a.length).filterMap (fun k => a[k]?) = a := by
  induction a with
  | nil => rfl
  | cons x a ih =>
    rw [List.length_cons, List.range_succ_eq_map, List.filterMap_cons]
    simp only [List.getElem?_cons_zero, List.filterMap_map]
    congr 1

theorem readAll_spec {f : Dyn V} {a : List V} (hf : Holds f (a.map some)) : readAll f (List.range f.size) = some a := by
  have : f.size = a.length := by simpa using hf.1
  rw [this, readAll_from hf _ (fun k hk => List.mem_range.mp hk), filterMap_range]

theorem writeAll_holds (vs : List V) : ∀ (ks : List Nat) (f : Dyn V) (b : List (Option V)), Holds f b → (∀ k ∈ ks, k < b.length ∧ k < vs.length) →
    ∃ g c, writeAll vs ks f = some g ∧ Holds g c ∧ c.length = b.length ∧ ∀ (k : Nat), c[k]? = if k ∈ ks then (vs[k]?).map some else b[k]? := by
  intro ks
  induction ks with
  | nil => intro f b hf _; exact ⟨f, b, rfl, hf, rfl, by simp⟩
  | cons k ks ih =>
    intro f b hf hk
    obtain ⟨h1, h2⟩ := hk k (by simp)
    obtain ⟨f1, e1, hf1⟩ := holds_write hf h1 vs[k]
    obtain ⟨g, c, e2, hg, hl, hc⟩ := ih f1 _ hf1 (by intro k' hk'; simpa using hk k' (by simp [hk']))
    refine ⟨g, c, by simp [writeAll, h2, e1, e2], hg, by simpa using hl, ?_⟩
    intro j
    rw [hc j]
    by_cases hj : j ∈ ks
    · simp [hj]
    · simp only [hj, if_false, List.mem_cons, or_false]
      by_cases hjk : j = k
      · subst hjk
        simp [h1, h2]
      · simp [hjk, List.getElem?_set, Ne.symm hjk]

/-- C83, dynamic functions, serialization, what holds: the values are written in order, at the front of the value sequence; and `deserialize` on any object that is not empty reads back the function from its size and its values. -/
theorem C83_serialize_partial {f g : Dyn V} {a : List V} {b : List (Option V)} (hf : Holds f (a.map some)) (hg : Holds g b) (hb : b ≠ [])
    (is : List Nat) (vs : List V) (hvs : vs.length = (sizes f).2) :
    serialize f is vs = some (is, a) ∧ ∃ h, deserialize [a.length] a g = some h ∧ Holds h (a.map some) := by
  have hs : f.size = a.length := by simpa using hf.1
  constructor
  · simp only [sizes] at hvs
    have := readAll_spec hf
    rw [hs] at this
    simp [serialize, this, hvs, hs, List.drop_eq_nil_of_le]
  · obtain ⟨g1, e1, hg1⟩ := holds_resize hg (n := a.length) (fun h => absurd h hb)
    have hlen : (if b.length = a.length then b else List.replicate a.length none).length = a.length := by
      split
      · assumption
      · simp
    obtain ⟨h, c, e2, hh, hl, hc⟩ := writeAll_holds a (List.range a.length) g1 _ hg1 (by
      intro k hk
      have := List.mem_range.mp hk
      rw [hlen]
      exact ⟨this, this⟩)
    refine ⟨h, by simp [deserialize, e1, e2], ?_⟩
    have : c = a.map some := by
      apply List.ext_getElem?
      intro k
      rw [hc k]
      by_cases hk : k < a.length
      · simp [hk]
      · have : c.length ≤ k := by omega
        have h1 := hc k
        simp only [List.mem_range, hk, if_false] at h1 ⊢
        rw [← h1]
        simp [List.getElem?_eq_none this, List.getElem?_eq_none (Nat.le_of_not_lt hk)]
    rwa [this] at hh

/-- C83, dynamic functions, serialization, violated: `serialize` never writes the size into the index sequence, although it reserves one entry for it. Read back from a sequence that was zero, as a file buffer is, every function
is empty; and if the entry did hold the size, reading into a fresh object would delete a pointer that was never set. -/
theorem C83_violated_serialize {f : Dyn V} {a : List V} (hf : Holds f (a.map some)) (ha : a ≠ []) (vs : List V) (hvs : vs.length = (sizes f).2) :
    serialize f (List.replicate (sizes f).1 0) vs = some ([0], a) ∧
      (∃ g, deserialize [0] a (make 0) = some g ∧ info g = (0, 1, 0) ∧ info f = (a.length, 1, a.length)) ∧
      deserialize [a.length] a (make 0) = none := by
  have hs : f.size = a.length := by simpa using hf.1
  have hl : a.length ≠ 0 := by simpa using ha
  refine ⟨?_, ⟨⟨none, 0⟩, by simp [deserialize, resize, make, writeAll], rfl, by simp [info, hs]⟩, ?_⟩
  · simp only [sizes] at hvs
    have := readAll_spec hf
    rw [hs] at this
    simp [serialize, this, hvs, hs, List.drop_eq_nil_of_le, sizes]
  · simp [deserialize, resize, make, free, Ne.symm hl]

/-! ### static functions -/

theorem scopyLoop_spec (src : List (Option V)) : ∀ (ks : List Nat) (dst : List (Option V)), (∀ k ∈ ks, k < src.length ∧ k < dst.length) →
    ∃ c, scopyLoop src ks dst = some c ∧ c.length = dst.length ∧ ∀ (k : Nat), c[k]? = if k ∈ ks then src[k]? else dst[k]? := by
  intro ks
  induction ks with
  | nil => intro dst _; exact ⟨dst, rfl, rfl, by simp⟩
  | cons k ks ih =>
    intro dst hk
    obtain ⟨h1, h2⟩ := hk k (by simp)
    obtain ⟨c, e, hl, hc⟩ := ih (dst.set k src[k]) (by intro k' hk'; simpa using hk k' (by simp [hk']))
    refine ⟨c, by simp [scopyLoop, h1, setAt, h2, e], by simpa using hl, ?_⟩
    intro j
    rw [hc j]
    by_cases hj : j ∈ ks
    · simp [hj]
    · simp only [hj, if_false, List.mem_cons, or_false]
      by_cases hjk : j = k
      · subst hjk
        simp [h1, h2]
      · simp [hjk, List.getElem?_set, Ne.symm hjk]

theorem sdeserialize_spec (vs : List V) : ∀ (ks : List Nat) (dst : List (Option V)), (∀ k ∈ ks, k < vs.length ∧ k < dst.length) →
    sdeserialize vs ks dst = scopyLoop (vs.map some) ks dst := by
  intro ks
  induction ks with
  | nil => intro dst _; rfl
  | cons k ks ih =>
    intro dst hk
    obtain ⟨h1, h2⟩ := hk k (by simp)
    have := ih (dst.set k (some vs[k])) (by intro k' hk'; simpa using hk k' (by simp [hk']))
    simp [sdeserialize, scopyLoop, h1, h2, swrite, setAt, this]

theorem scopyLoop_all {n : Nat} {src dst : List (Option V)} (hs : src.length = n) (hd : dst.length = n) :
    scopyLoop src (List.range n) dst = some src := by
  obtain ⟨c, e, hl, hc⟩ := scopyLoop_spec src (List.range n) dst (by
    intro k hk
    have := List.mem_range.mp hk
    omega)
  rw [e]
  congr 1
  apply List.ext_getElem?
  intro k
  rw [hc k]
  by_cases hk : k < n
  · simp [hk]
  · simp [hk, List.getElem?_eq_none (show dst.length ≤ k by omega), List.getElem?_eq_none (show src.length ≤ k by omega)]

theorem sserialize_from {f : List (Option V)} {a : List V} (hf : f = a.map some) : ∀ ks : List Nat, (∀ k ∈ ks, k < a.length) →
    sserialize f ks = some (ks.filterMap (fun k => a[k]?)) := by
  subst hf
  intro ks
  induction ks with
  | nil => intro _; rfl
  | cons k ks ih =>
    intro hk
    have h1 : k < a.length := hk k (by simp)
    have h2 := ih (fun k' hk' => hk k' (by simp [hk']))
    simp [sserialize, h2, sread, h1]

/-- C83, static functions: for every size, a copy and an assigned function have the elements of the source, whatever the destination held; a write changes exactly its element; and reading back what `serialize` wrote
gives the same function. -/
theorem C83_static (n : Nat) {f g : List (Option V)} (hf : f.length = n) (hg : g.length = n) :
    scopy n f = some f ∧ sassign n g f = some f ∧
      (∀ (k : Nat) (v : V), k < n → ∃ h, swrite f k v = some h ∧ h.length = n ∧ ∀ (j : Nat), sread h j = if j = k then some v else sread f j) ∧
      (∀ a : List V, f = a.map some → sserialize f (List.range n) = some a ∧ sdeserialize a (List.range n) g = some f) := by
  refine ⟨scopyLoop_all hf (by simp [smake]), scopyLoop_all hf hg, ?_, ?_⟩
  · intro k v hk
    refine ⟨f.set k (some v), by simp [swrite, setAt, hf, hk], by simpa using hf, ?_⟩
    intro j
    by_cases hj : j = k
    · subst hj
      simp [sread, hf, hk]
    · simp [sread, List.getElem?_set, Ne.symm hj, hj]
  · intro a ha
    have hl : a.length = n := by rw [← hf, ha]; simp
    constructor
    · rw [sserialize_from ha _ (by intro k hk; have := List.mem_range.mp hk; omega), ← hl, filterMap_range]
    · rw [sdeserialize_spec _ _ _ (by intro k hk; have := List.mem_range.mp hk; omega), ← ha]
      exact scopyLoop_all hf hg

/-! ### concrete cases -/

/-- A program with three objects that meets the hypotheses of the theorems about programs. -/
def sampleOps : List (ArrayOp Int) := [.make 2, .write 0 0 5, .write 0 1 7, .copy 0, .makeFill 3 9, .assign 0 2, .resize 1 0, .resizeFill 2 1 4]

theorem sampleOps_program : Program sampleOps [] [[some 9, some 9, some 9], [], [some 4]] := by
  refine .cons trivial (by simp [ArrayOp.GrowsEmpty]) (.cons ⟨_, rfl, by simp⟩ (by simp [ArrayOp.GrowsEmpty]) (.cons ⟨_, rfl, by simp⟩ (by simp [ArrayOp.GrowsEmpty])
    (.cons (by simp [ArrayOp.apply, ArrayOp.InRange]) (by simp [ArrayOp.GrowsEmpty]) (.cons trivial (by simp [ArrayOp.GrowsEmpty]) (.cons ⟨by simp [ArrayOp.apply], by simp [ArrayOp.apply]⟩ (by simp [ArrayOp.GrowsEmpty, ArrayOp.apply])
      (.cons (by simp [ArrayOp.InRange, ArrayOp.apply]) (by simp [ArrayOp.GrowsEmpty, ArrayOp.apply]) (.cons (by simp [ArrayOp.InRange, ArrayOp.apply]) (by simp [ArrayOp.GrowsEmpty, ArrayOp.apply]) ?_)))))))
  exact .nil _

example : ∃ w, run sampleOps [] = some w ∧ w.length = 3 ∧ destroyAll w = some () :=
  let ⟨w, h1, h2, h3, _⟩ := C83_dynamic_partial sampleOps_program
  ⟨w, h1, h2, h3⟩

example : run (sampleOps ++ [.assign 1 0]) [] = none :=
  C83_violated_grow sampleOps_program ⟨by simp, by simp⟩ ⟨rfl, by simp⟩

example : run ([.make 0, .resize 0 1] : List (ArrayOp Int)) [] = none := rfl
example : run ([.make 1, .resize 0 0, .resize 0 1] : List (ArrayOp Int)) [] = none := rfl

example : serialize (makeFill 2 (3 : Int)) [8] [0, 0] = some ([8], [3, 3]) ∧ ∃ h, deserialize [2] [3, 3] (makeFill 1 (0 : Int)) = some h ∧ Holds h [some 3, some 3] :=
  C83_serialize_partial (a := [3, 3]) (b := [some 0]) (holds_makeFill 2 3) (holds_makeFill 1 0) (by simp) [8] [0, 0] rfl

example : deserialize [2] [3, 3] (make 0 : Dyn Int) = none := (C83_violated_serialize (holds_makeFill 2 (3 : Int)) (a := [3, 3]) (by simp) [0, 0] rfl).2.2

example : scopy 2 [some (1 : Int), none] = some [some 1, none] := (C83_static 2 (g := [none, none]) rfl rfl).1

end SingleSite
end OpenGM
