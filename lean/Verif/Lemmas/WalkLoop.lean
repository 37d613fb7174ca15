import Verif.Model.FactorOps
import Verif.Spec.FactorAlgebra
import Verif.Lemmas.TripleWalker
import Verif.Lemmas.MarrayArr
/-
Lemmas about the counting loops over walkers.
-/
namespace OpenGM
open Spec
namespace FactorOps
open Marray Walkers
variable {V : Type}

/-- Starting at `s`, the walker is in turn at the states in the list (and can be incremented once more). -/
def Visits {σ : Type} (next : σ → Option σ) : σ → List σ → Prop
  | _, [] => True
  | s, a :: l => s = a ∧ ∃ s', next s = some s' ∧ Visits next s' l

theorem visits_of_steps {σ : Type} (next : σ → Option σ) : ∀ (n : Nat) (s : σ), (∀ k, k ≤ n → ∃ c, steps next k s = some c) →
    ∃ l, l.length = n ∧ Visits next s l ∧ ∀ k, k < n → l[k]? = steps next k s
  | 0, _, _ => ⟨[], rfl, trivial, by simp⟩
  | n + 1, s, h => by
    obtain ⟨s', hs'⟩ := h 1 (by omega)
    have hs : next s = some s' := by
      simp only [steps] at hs'
      cases hn : next s with
      | none => rw [hn] at hs'; simp at hs'
      | some c => rw [hn] at hs'; simpa using hs'
    obtain ⟨l, h1, h2, h3⟩ := visits_of_steps next n s' (by
      intro k hk
      obtain ⟨c, hc⟩ := h (k + 1) (by omega)
      simp only [steps, hs, Option.bind_some] at hc
      exact ⟨c, hc⟩)
    refine ⟨s :: l, by simp [h1], ⟨rfl, s', hs, h2⟩, ?_⟩
    intro k hk
    cases k with
    | zero => simp [steps]
    | succ k => simpa [steps, hs] using h3 k (by omega)

theorem walkLoop_visits {σ : Type} (next : σ → Option σ) (body : σ → Arr V → Option (Arr V)) : ∀ (l : List σ) (s : σ) (a : Arr V),
    Visits next s l → walkLoop next body l.length s a = l.foldlM (fun a s => body s a) a
  | [], _, _, _ => rfl
  | s :: l, _, a, ⟨rfl, s', hs, h⟩ => by
    simp only [List.length_cons, walkLoop, List.foldlM_cons]
    cases body s a with
    | none => rfl
    | some a' =>
      simp only [hs]
      exact walkLoop_visits next body l s' a' h

theorem accLoop_visits {σ : Type} (accOp : V → V → V) (next : σ → Option σ) (read : σ → Option V) (val : σ → V) :
    ∀ (l : List σ) (s : σ) (acc : V), Visits next s l → (∀ s ∈ l, read s = some (val s)) →
      accLoop accOp next read l.length s acc = some (l.foldl (fun acc s => accOp (val s) acc) acc)
  | [], _, _, _, _ => rfl
  | s :: l, _, acc, ⟨rfl, s', hs, h⟩, hr => by
    simp only [List.length_cons, accLoop, hr s (by simp), hs, List.foldl_cons]
    exact accLoop_visits accOp next read val l s' _ h (fun s hs => hr s (List.mem_cons_of_mem _ hs))

/-- Writing each cell in the list once, where the value may depend on the old value of that cell. -/
theorem foldlM_set {σ : Type} {shape : List Nat} {o : Order} (coord : σ → List Nat) (f : σ → V) (body : σ → Arr V → Option (Arr V))
    : ∀ (l : List σ) (c0 : Arr V), c0.Ok shape o → (l.map coord).Nodup → (∀ s ∈ l, InShape shape (coord s)) →
    (∀ s ∈ l, ∀ c : Arr V, c.Ok shape o → c.get (coord s) = c0.get (coord s) → body s c = c.set (coord s) (f s)) →
    ∃ c, l.foldlM (fun a s => body s a) c0 = some c ∧ c.Ok shape o ∧ (∀ s ∈ l, c.get (coord s) = some (f s)) ∧
      ∀ t, InShape shape t → t ∉ l.map coord → c.get t = c0.get t
  | [], c0, h0, _, _, _ => ⟨c0, rfl, h0, by simp, fun _ _ _ => rfl⟩
  | s :: l, c0, h0, hnd, hin, hb => by
    simp only [List.map_cons, List.nodup_cons] at hnd
    obtain ⟨c1, h1, h2, h3, h4⟩ := h0.set_spec (hin s (by simp)) (f s)
    have hne : ∀ s' ∈ l, coord s' ≠ coord s := by
      intro s' hs' he
      exact hnd.1 (he ▸ List.mem_map_of_mem hs')
    obtain ⟨c, e1, e2, e3, e4⟩ := foldlM_set coord f body l c1 h2 hnd.2 (fun s hs => hin s (List.mem_cons_of_mem _ hs)) (by
      intro s' hs' c hc hg
      apply hb s' (List.mem_cons_of_mem _ hs') c hc
      rw [hg, h4 _ (hin s' (List.mem_cons_of_mem _ hs')) (hne s' hs')])
    refine ⟨c, ?_, e2, ?_, ?_⟩
    · rw [List.foldlM_cons, hb s (by simp) c0 h0 rfl, h1]
      exact e1
    · intro s' hs'
      rcases List.mem_cons.mp hs' with rfl | hs'
      · rw [e4 _ (hin s' (by simp)) hnd.1, h3]
      · exact e3 s' hs'
    · intro t ht hn
      simp only [List.map_cons, List.mem_cons, not_or] at hn
      rw [e4 t ht hn.2, h4 t ht hn.1]

/-- A loop over a walker that visits each cell of the array once. -/
theorem walkLoop_spec {σ : Type} {shape : List Nat} {o : Order} (next : σ → Option σ) (coord : σ → List Nat) (f : σ → V)
    (body : σ → Arr V → Option (Arr V)) {l : List σ} {s0 : σ} {c0 : Arr V} {n : Nat} (hn : l.length = n) (h0 : c0.Ok shape o) (hv : Visits next s0 l)
    (hl : l.map coord = allTuples shape)
    (hb : ∀ s ∈ l, ∀ c : Arr V, c.Ok shape o → c.get (coord s) = c0.get (coord s) → body s c = c.set (coord s) (f s)) :
    ∃ c, walkLoop next body n s0 c0 = some c ∧ c.Ok shape o ∧ ∀ s ∈ l, c.get (coord s) = some (f s) := by
  subst hn
  rw [walkLoop_visits next body l s0 c0 hv]
  obtain ⟨c, h1, h2, h3, _⟩ := foldlM_set coord f body l c0 h0 (by rw [hl]; exact nodup_allTuples shape)
    (by
      intro s hs
      have := List.mem_map_of_mem (f := coord) hs
      rw [hl] at this
      exact (mem_allTuples _ _).mp this) hb
  exact ⟨c, h1, h2, h3⟩

/-! ### totality of the walkers -/

theorem setAt_isSome {α : Type} {l : List α} {i : Nat} (h : i < l.length) (x : α) : ∃ l', setAt l i x = some l' ∧ l'.length = l.length :=
  ⟨_, setAt_of_lt x h, by simp⟩

theorem shapeWalkerLoop_total (shape : List Nat) : ∀ (ds c : List Nat), c.length = shape.length → (∀ d ∈ ds, d < shape.length) →
    ∃ c', shapeWalkerLoop shape ds c = some c'
  | [], c, _, _ => ⟨c, rfl⟩
  | d :: ds, c, hl, hd => by
    have h1 := hd d (by simp)
    unfold shapeWalkerLoop
    rw [List.getElem?_eq_getElem (by omega : d < c.length), List.getElem?_eq_getElem h1]
    simp only
    obtain ⟨c1, e1, l1⟩ := setAt_isSome (l := c) (i := d) (by omega) (c[d] + 1)
    obtain ⟨c2, e2, l2⟩ := setAt_isSome (l := c) (i := d) (by omega) 0
    rw [e1, e2]
    simp only [Option.bind_some]
    split
    · exact ⟨_, rfl⟩
    · split
      · exact shapeWalkerLoop_total shape ds c2 (by omega) (fun d h => hd d (List.mem_cons_of_mem _ h))
      · exact ⟨_, rfl⟩

theorem subLoop_total (shape idx : List Nat) : ∀ (ds : List Nat) (counter : Nat) (c : List Nat), c.length = shape.length → (∀ d ∈ ds, d < shape.length) →
    ∃ c', subLoop shape idx ds counter c = some c'
  | [], _, c, _, _ => ⟨c, rfl⟩
  | d :: ds, counter, c, hl, hd => by
    have h1 := hd d (by simp)
    unfold subLoop
    split
    · exact subLoop_total shape idx ds _ c hl (fun d h => hd d (List.mem_cons_of_mem _ h))
    · rw [List.getElem?_eq_getElem (by omega : d < c.length), List.getElem?_eq_getElem h1]
      simp only
      obtain ⟨c1, e1, l1⟩ := setAt_isSome (l := c) (i := d) (by omega) (c[d] + 1)
      obtain ⟨c2, e2, l2⟩ := setAt_isSome (l := c) (i := d) (by omega) 0
      rw [e1, e2]
      simp only [Option.bind_some]
      split
      · exact ⟨_, rfl⟩
      · split
        · exact subLoop_total shape idx ds _ c2 (by omega) (fun d h => hd d (List.mem_cons_of_mem _ h))
        · exact ⟨_, rfl⟩

theorem steps_succ {α : Type} (next : α → Option α) (k : Nat) (c : α) : steps next (k + 1) c = (steps next k c).bind next := by
  induction k generalizing c with
  | zero => simp [steps]
  | succ k ih =>
    conv_lhs => unfold steps
    conv_rhs => unfold steps
    cases next c with
    | none => rfl
    | some d => simpa using ih d

/-- A walker that follows the odometer, and can be incremented in every state, visits all tuples. -/
theorem visits_allTuples {α : Type} (next : α → Option α) (shape : List Nat) (hp : Positive shape) (e : List Nat → α)
    (hnext : ∀ t t', InShape shape t → odoNext shape t = some t' → next (e t) = some (e t'))
    (htot : ∀ t, InShape shape t → ∃ s, next (e t) = some s) :
    Visits next (e (List.replicate shape.length 0)) ((allTuples shape).map e) := by
  have hs := steps_allTuples next shape hp e hnext
  have hlen := length_allTuples shape
  have hk : ∀ k, k < shape.prod → ∃ t, (allTuples shape)[k]? = some t ∧ InShape shape t := by
    intro k hk
    have : k < (allTuples shape).length := by omega
    exact ⟨_, List.getElem?_eq_getElem this, (mem_allTuples _ _).mp (List.getElem_mem this)⟩
  obtain ⟨l, h1, h2, h3⟩ := visits_of_steps next shape.prod (e (List.replicate shape.length 0)) (by
    intro k hkn
    rcases Nat.lt_or_ge k shape.prod with h | h
    · obtain ⟨t, ht, _⟩ := hk k h
      exact ⟨e t, by rw [hs k h, ht]; rfl⟩
    · have hkp : k = shape.prod := by omega
      have hpos := Marray.positive_prod hp
      obtain ⟨m, hm⟩ : ∃ m, k = m + 1 := ⟨k - 1, by omega⟩
      subst hm
      rw [steps_succ, hs m (by omega)]
      obtain ⟨t, ht, hin⟩ := hk m (by omega)
      rw [ht]
      exact htot t hin)
  have : l = (allTuples shape).map e := by
    apply List.ext_getElem?
    intro k
    rcases Nat.lt_or_ge k shape.prod with h | h
    · rw [h3 k h, hs k h, List.getElem?_map]
    · rw [List.getElem?_eq_none (by omega), List.getElem?_eq_none (by simp; omega)]
  exact this ▸ h2

end FactorOps
end OpenGM
