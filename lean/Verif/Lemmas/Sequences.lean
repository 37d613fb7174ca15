import Verif.Model.Sequences
import Mathlib.Tactic.Common
import Mathlib.Order.Basic
/-
Lemmas about the models of FastSequence and BufferVector.
-/
namespace OpenGM
namespace Sequences
open Spec
variable {V : Type}

/-- Replacing the pointer `p` by `p'` turns the heap `h` into `h'`: other live blocks are kept, `p'` is `p` or new, and all live
blocks are those of `p'` and live blocks from before other than that of `p`. -/
structure Moves (h : Heap V) (p : Ptr) (h' : Heap V) (p' : Ptr) : Prop where
  mono : h.length ≤ h'.length
  keep : ∀ a b, h[a]? = some (some b) → p ≠ .heap a → h'[a]? = some (some b)
  target : ∀ a, p' = .heap a → p = .heap a ∨ h.length ≤ a
  noLeak : ∀ a b, h'[a]? = some (some b) → p' = .heap a ∨ (p ≠ .heap a ∧ ∃ b', h[a]? = some (some b'))

theorem lt_of_live {h : Heap V} {a : Nat} {b : Block V} (e : h[a]? = some (some b)) : a < h.length := by
  by_contra hc
  rw [List.getElem?_eq_none (by omega)] at e
  exact absurd e (by simp)

theorem Moves.refl (h : Heap V) (p : Ptr) : Moves h p h p where
  mono := Nat.le_refl _
  keep := fun _ _ e _ => e
  target := fun _ e => Or.inl e
  noLeak := fun a b e => by
    by_cases hp : p = .heap a
    · exact Or.inl hp
    · exact Or.inr ⟨hp, b, e⟩

theorem Moves.trans {h h1 h2 : Heap V} {p p1 p2 : Ptr} (m1 : Moves h p h1 p1) (m2 : Moves h1 p1 h2 p2) : Moves h p h2 p2 where
  mono := Nat.le_trans m1.mono m2.mono
  keep := fun a b e hp => by
    refine m2.keep a b (m1.keep a b e hp) ?_
    intro h1
    rcases m1.target a h1 with h2 | h2
    · exact hp h2
    · have := lt_of_live e; omega
  target := fun a e => by
    rcases m2.target a e with h1 | h1
    · exact m1.target a h1
    · exact Or.inr (Nat.le_trans m1.mono h1)
  noLeak := fun a b e => by
    rcases m2.noLeak a b e with h1 | ⟨h1, b', h2⟩
    · exact Or.inl h1
    · rcases m1.noLeak a b' h2 with h3 | h3
      · exact absurd h3 h1
      · exact Or.inr h3

/-- Not a pointer to the heap. -/
def Ptr.NotHeap (p : Ptr) : Prop := ∀ a, p ≠ .heap a

theorem notHeap_stack : Ptr.stack.NotHeap := fun _ => by simp
theorem notHeap_null : Ptr.null.NotHeap := fun _ => by simp
theorem notHeap_wild : Ptr.wild.NotHeap := fun _ => by simp

theorem Moves.same {h : Heap V} {p p' : Ptr} (hp : p.NotHeap) (hp' : p'.NotHeap) : Moves h p h p' where
  mono := Nat.le_refl _
  keep := fun _ _ e _ => e
  target := fun a e => absurd e (hp' a)
  noLeak := fun a b e => Or.inr ⟨hp a, b, e⟩

theorem Moves.alloc {h : Heap V} {p : Ptr} (hp : p.NotHeap) (b : Block V) : Moves h p (h ++ [some b]) (.heap h.length) where
  mono := by simp
  keep := fun a b e _ => by rw [List.getElem?_append_left (lt_of_live e)]; exact e
  target := fun a e => by injection e with e; exact Or.inr (by omega)
  noLeak := fun a b' e => by
    by_cases ha : a < h.length
    · rw [List.getElem?_append_left ha] at e
      exact Or.inr ⟨hp a, b', e⟩
    · have := lt_of_live e
      simp at this
      left
      congr 1
      omega

theorem Moves.delete {h : Heap V} {a : Nat} {p' : Ptr} (hp : p'.NotHeap) : Moves h (.heap a) (h.set a none) p' where
  mono := by simp
  keep := fun x b e hne => by
    rw [List.getElem?_set_ne (by intro h; exact hne (by rw [h]))]
    exact e
  target := fun x e => absurd e (hp x)
  noLeak := fun x b e => by
    right
    by_cases hx : a = x
    · subst hx
      rw [List.getElem?_set_self (by have := lt_of_live e; simpa using this)] at e
      simp at e
    · rw [List.getElem?_set_ne hx] at e
      exact ⟨by intro h; injection h with h; exact hx h, b, e⟩

theorem Moves.write {h : Heap V} {a : Nat} (b : Block V) : Moves h (.heap a) (h.set a (some b)) (.heap a) where
  mono := by simp
  keep := fun x b e hne => by
    rw [List.getElem?_set_ne (by intro h; exact hne (by rw [h]))]
    exact e
  target := fun x e => Or.inl e
  noLeak := fun x b e => by
    by_cases hx : a = x
    · exact Or.inl (by rw [hx])
    · rw [List.getElem?_set_ne hx] at e
      exact Or.inr ⟨by intro h; injection h with h; exact hx h, b, e⟩

/-- A new block, and then the old one is freed. -/
theorem Moves.realloc {h : Heap V} {a : Nat} {b : Block V} (hl : h[a]? = some (some b)) (nb : Block V) :
    Moves h (.heap a) ((h ++ [some nb]).set a none) (.heap h.length) where
  mono := by simp
  keep := fun x b' e hne => by
    rw [List.getElem?_set_ne (by intro h; exact hne (by rw [h])), List.getElem?_append_left (lt_of_live e)]
    exact e
  target := fun x e => by injection e with e; exact Or.inr (by omega)
  noLeak := fun x b' e => by
    have hal := lt_of_live hl
    by_cases hx : a = x
    · subst hx
      rw [List.getElem?_set_self (by simp; omega)] at e
      simp at e
    · rw [List.getElem?_set_ne hx] at e
      by_cases hxl : x < h.length
      · rw [List.getElem?_append_left hxl] at e
        exact Or.inr ⟨by intro h; injection h with h; exact hx h, b', e⟩
      · have := lt_of_live e
        simp at this
        left; congr 1; omega

/-- The stored entries are as specified. -/
def Agree (c b : Block V) : Prop := ∀ (k : Nat) (v : V), c[k]? = some (some v) → b[k]? = some (some v)

theorem Agree.take {c b : Block V} (h : Agree c b) (x : Block V) : Agree c (b.take c.length ++ x) := by
  intro k v e
  have hk : k < c.length := by
    by_contra hc
    rw [List.getElem?_eq_none (by omega)] at e
    exact absurd e (by simp)
  have hb := h k v e
  have hkb : k < b.length := by
    by_contra hc
    rw [List.getElem?_eq_none (by omega)] at hb
    exact absurd hb (by simp)
  rw [List.getElem?_append_left (by simp; omega), List.getElem?_take_of_lt hk]
  exact hb

theorem Agree.prefix {c b : Block V} (h : Agree c b) (n : Nat) (k : Nat) : Agree (c.take n ++ List.replicate k none) b := by
  intro i v e
  by_cases hi : i < (c.take n).length
  · rw [List.getElem?_append_left hi, List.getElem?_take_of_lt (by simp at hi; omega)] at e
    exact h i v e
  · rw [List.getElem?_append_right (by omega), List.getElem?_replicate] at e
    split at e <;> simp at e

theorem Agree.push {c b : Block V} (h : Agree c b) (x : Option V) (hx : c.length < b.length) (y : Option V) (hxy : ∀ v, x = some v → y = some v) :
    Agree (c ++ [x]) (b.set c.length y) := by
  intro k v e
  by_cases hk : k < c.length
  · rw [List.getElem?_append_left hk] at e
    rw [List.getElem?_set_ne (by omega)]
    exact h k v e
  · rw [List.getElem?_append_right (by omega)] at e
    have : k = c.length := by
      by_contra hc
      rw [List.getElem?_eq_none (by simp; omega)] at e
      exact absurd e (by simp)
    subst this
    rw [List.getElem?_set_self hx]
    simp at e
    rw [hxy v e]

theorem Agree.set {c b : Block V} (h : Agree c b) (k : Nat) (x : V) (hk : k < b.length) : Agree (c.set k (some x)) (b.set k (some x)) := by
  intro i v e
  by_cases hi : k = i
  · subst hi
    have hl : k < (c.set k (some x)).length := by
      by_contra hc
      rw [List.getElem?_eq_none (by omega)] at e
      exact absurd e (by simp)
    rw [List.getElem?_set_self (by simpa using hl)] at e
    rw [List.getElem?_set_self hk]
    exact e
  · rw [List.getElem?_set_ne hi] at e ⊢
    exact h i v e

theorem Agree.nil (b : Block V) : Agree [] b := by intro k v e; simp at e

theorem Agree.self_append (c x : Block V) : Agree c (c ++ x) := by
  intro k v e
  have hk : k < c.length := by
    by_contra hc
    rw [List.getElem?_eq_none (by omega)] at e
    exact absurd e (by simp)
  rw [List.getElem?_append_left hk]
  exact e

theorem Agree.none (n : Nat) (b : Block V) : Agree (List.replicate n none) b := by
  intro k v e
  rw [List.getElem?_replicate] at e
  split at e <;> simp at e

/-! ### Access -/

theorem cells_heap {h : Heap V} {a : Nat} {b stack : Block V} (e : h[a]? = some (some b)) : cells h stack (.heap a) = some b := by
  simp [cells, e]

theorem live_of_cells {h : Heap V} {a : Nat} {b stack : Block V} (e : cells h stack (.heap a) = some b) : h[a]? = some (some b) := by
  simp only [cells] at e
  split at e
  · rename_i heq; injection e with e; rw [heq, e]
  · exact absurd e (by simp)

theorem readFirst_spec {h : Heap V} {stack b : Block V} {p : Ptr} (e : cells h stack p = some b) {n : Nat} (hn : n ≤ b.length) :
    readFirst h stack p n = some (b.take n) := by
  unfold readFirst
  split
  · rename_i h0; simp [h0]
  · rw [e]; simp [hn]

theorem writeFirst_spec {h : Heap V} {stack b : Block V} {p : Ptr} (e : cells h stack p = some b) {vals : Block V} (hn : vals.length ≤ b.length) :
    ∃ h' stack', writeFirst h stack p vals = some (h', stack') ∧ cells h' stack' p = some (vals ++ b.drop vals.length) ∧
      Moves h p h' p ∧ stack'.length = stack.length := by
  unfold writeFirst
  split
  · rename_i h0
    refine ⟨h, stack, rfl, ?_, .refl _ _, rfl⟩
    rw [e, List.length_eq_zero_iff.mp h0]; simp
  · cases p with
    | stack =>
      simp only [cells, Option.some.injEq] at e
      subst e
      simp only
      rw [if_pos hn]
      exact ⟨_, _, rfl, rfl, .same notHeap_stack notHeap_stack, by simp; omega⟩
    | heap a =>
      have hl := live_of_cells e
      simp only [hl]
      rw [if_pos hn]
      refine ⟨_, _, rfl, ?_, .write _, rfl⟩
      exact cells_heap (List.getElem?_set_self (lt_of_live hl))
    | null => simp [cells] at e
    | wild => simp [cells] at e

theorem writeAt_spec {h : Heap V} {stack b : Block V} {p : Ptr} (e : cells h stack p = some b) {k : Nat} (hk : k < b.length) (x : Option V) :
    ∃ h' stack', writeAt h stack p k x = some (h', stack') ∧ cells h' stack' p = some (b.set k x) ∧
      Moves h p h' p ∧ stack'.length = stack.length := by
  unfold writeAt
  cases p with
  | stack =>
    simp only [cells, Option.some.injEq] at e
    subst e
    simp only
    rw [if_pos hk]
    exact ⟨_, _, rfl, rfl, .same notHeap_stack notHeap_stack, by simp⟩
  | heap a =>
    have hl := live_of_cells e
    simp only [hl]
    rw [if_pos hk]
    refine ⟨_, _, rfl, ?_, .write _, rfl⟩
    exact cells_heap (List.getElem?_set_self (lt_of_live hl))
  | null => simp [cells] at e
  | wild => simp [cells] at e

theorem alloc_spec (h : Heap V) {n : Nat} {vals : Block V} (hn : vals.length ≤ n) :
    alloc h n vals = some (h ++ [some (vals ++ List.replicate (n - vals.length) none)], h.length) := if_pos hn

theorem cells_new (h : Heap V) (b stack : Block V) : cells (h ++ [some b]) stack (.heap h.length) = some b :=
  cells_heap (by simp)

theorem delete_spec {h : Heap V} {a : Nat} {b : Block V} (e : h[a]? = some (some b)) : delete h (.heap a) = some (h.set a none) := by
  simp [delete, e]

/-! ### Worlds -/

section World
variable {S : Type} (Ok : Heap V → S → Block V → Prop) (ptr : S → Ptr)

/-- The invariant of the memory and all objects. -/
structure WInv (w : World V S) (cs : Contents V) : Prop where
  length : w.objs.length = cs.length
  alive : ∀ i : Nat, (w.objs[i]? = some none ↔ cs[i]? = some none)
  ok : ∀ (i : Nat) (s : S) (c : Block V), w.objs[i]? = some (some s) → cs[i]? = some (some c) → Ok w.heap s c
  distinct : ∀ (i j : Nat) (s t : S) (a : Nat), w.objs[i]? = some (some s) → w.objs[j]? = some (some t) → ptr s = .heap a → ptr t = .heap a → i = j
  noLeak : ∀ (a : Nat) (b : Block V), w.heap[a]? = some (some b) → ∃ (i : Nat) (s : S), w.objs[i]? = some (some s) ∧ ptr s = .heap a

/-- What is used about single objects. -/
structure Framed : Prop where
  frame : ∀ h h' s c, Ok h s c → (∀ a b, ptr s = .heap a → h[a]? = some (some b) → h'[a]? = some (some b)) → Ok h' s c
  live : ∀ h s c a, Ok h s c → ptr s = .heap a → ∃ b, h[a]? = some (some b)

variable {Ok ptr}

theorem WInv.obj {w : World V S} {cs : Contents V} (hw : WInv Ok ptr w cs) {i : Nat} {c : Block V} (hc : cs[i]? = some (some c)) :
    ∃ s, w.objs[i]? = some (some s) ∧ Ok w.heap s c := by
  have hi : i < cs.length := by
    by_contra h
    rw [List.getElem?_eq_none (by omega)] at hc
    exact absurd hc (by simp)
  have hi' : i < w.objs.length := by rw [hw.length]; exact hi
  cases ho : w.objs[i]'hi' with
  | none =>
    have := (hw.alive i).mp (by rw [List.getElem?_eq_getElem hi', ho])
    rw [hc] at this
    simp at this
  | some s =>
    have e : w.objs[i]? = some (some s) := by rw [List.getElem?_eq_getElem hi', ho]
    exact ⟨s, e, hw.ok i s c e hc⟩

theorem WInv.content {w : World V S} {cs : Contents V} (hw : WInv Ok ptr w cs) {i : Nat} {s : S} (hs : w.objs[i]? = some (some s)) :
    ∃ c, cs[i]? = some (some c) ∧ Ok w.heap s c := by
  have hi : i < w.objs.length := by
    by_contra h
    rw [List.getElem?_eq_none (by omega)] at hs
    exact absurd hs (by simp)
  have hi' : i < cs.length := by rw [← hw.length]; exact hi
  cases ho : cs[i]'hi' with
  | none =>
    have := (hw.alive i).mpr (by rw [List.getElem?_eq_getElem hi', ho])
    rw [hs] at this
    simp at this
  | some c =>
    have e : cs[i]? = some (some c) := by rw [List.getElem?_eq_getElem hi', ho]
    exact ⟨c, e, hw.ok i s c hs e⟩

theorem WInv.update (hf : Framed Ok ptr) {w : World V S} {cs : Contents V} (hw : WInv Ok ptr w cs) {i : Nat} {s s' : S} {c' : Block V} {h' : Heap V}
    (hs : w.objs[i]? = some (some s)) (hm : Moves w.heap (ptr s) h' (ptr s')) (hok : Ok h' s' c') :
    WInv Ok ptr ⟨h', w.objs.set i (some s')⟩ (cs.set i (some c')) := by
  have hi : i < w.objs.length := by
    by_contra h
    rw [List.getElem?_eq_none (by omega)] at hs
    exact absurd hs (by simp)
  have hi' : i < cs.length := by rw [← hw.length]; exact hi
  refine ⟨by simp [hw.length], ?_, ?_, ?_, ?_⟩
  · intro j
    by_cases hj : i = j
    · subst hj
      simp [List.getElem?_set_self, hi, hi']
    · simp only [List.getElem?_set_ne hj]
      exact hw.alive j
  · intro j t c ht hc
    by_cases hj : i = j
    · subst hj
      simp only [List.getElem?_set_self hi, List.getElem?_set_self hi', Option.some.injEq] at ht hc
      subst ht hc
      exact hok
    · simp only [List.getElem?_set_ne hj] at ht hc
      refine hf.frame _ _ _ _ (hw.ok j t c ht hc) ?_
      intro a b ha hb
      exact hm.keep a b hb (fun hp => hj (hw.distinct i j s t a hs ht hp ha))
  · have key : ∀ (j : Nat) (t : S) (a : Nat), i ≠ j → w.objs[j]? = some (some t) → ptr s' = .heap a → ptr t = .heap a → False := by
      intro j t a hj ht hp ha
      obtain ⟨c, hc, hokt⟩ := hw.content ht
      obtain ⟨b, hb⟩ := hf.live _ _ _ _ hokt ha
      rcases hm.target a hp with h1 | h1
      · exact hj (hw.distinct i j s t a hs ht h1 ha)
      · have := lt_of_live hb; omega
    intro j k t u a ht hu hta hua
    simp only at ht hu
    by_cases hj : i = j
    · by_cases hk : i = k
      · omega
      · subst hj
        rw [List.getElem?_set_self hi] at ht
        rw [List.getElem?_set_ne hk] at hu
        simp only [Option.some.injEq] at ht
        subst ht
        exact (key k u a hk hu hta hua).elim
    · rw [List.getElem?_set_ne hj] at ht
      by_cases hk : i = k
      · subst hk
        rw [List.getElem?_set_self hi] at hu
        simp only [Option.some.injEq] at hu
        subst hu
        exact (key j t a hj ht hua hta).elim
      · rw [List.getElem?_set_ne hk] at hu
        exact hw.distinct j k t u a ht hu hta hua
  · intro a b hb
    simp only at hb ⊢
    rcases hm.noLeak a b hb with h1 | ⟨h1, b', h2⟩
    · exact ⟨i, s', List.getElem?_set_self hi, h1⟩
    · obtain ⟨j, t, ht, ha⟩ := hw.noLeak a b' h2
      refine ⟨j, t, ?_, ha⟩
      rw [List.getElem?_set_ne]
      · exact ht
      · rintro rfl
        rw [hs] at ht
        simp only [Option.some.injEq] at ht
        subst ht
        exact h1 ha

theorem WInv.modify (hf : Framed Ok ptr) {w : World V S} {cs cs' : Contents V} (hw : WInv Ok ptr w cs) {i : Nat}
    {f : Block V → Option (Block V)} (hcs : cs.modify i f = some cs') {g : Heap V → S → Option (Heap V × S)}
    (hg : ∀ s c c', w.objs[i]? = some (some s) → cs[i]? = some (some c) → Ok w.heap s c → f c = some c' →
      ∃ h' s', g w.heap s = some (h', s') ∧ Ok h' s' c' ∧ Moves w.heap (ptr s) h' (ptr s')) :
    ∃ w', w.modify i g = some w' ∧ WInv Ok ptr w' cs' := by
  unfold Contents.modify at hcs
  split at hcs
  · rename_i c hc
    split at hcs
    · rename_i c' hc'
      injection hcs with hcs
      subst hcs
      obtain ⟨s, hs, hok⟩ := hw.obj hc
      obtain ⟨h', s', e, hok', hm⟩ := hg s c c' hs hc hok hc'
      refine ⟨⟨h', w.objs.set i (some s')⟩, ?_, hw.update hf hs hm hok'⟩
      simp only [World.modify, hs, e]
    · exact absurd hcs (by simp)
  · exact absurd hcs (by simp)

theorem WInv.add (hf : Framed Ok ptr) {w : World V S} {cs : Contents V} (hw : WInv Ok ptr w cs) {h' : Heap V} {s' : S} {c' : Block V}
    (hm : Moves w.heap .null h' (ptr s')) (hok : Ok h' s' c') : WInv Ok ptr ⟨h', w.objs ++ [some s']⟩ (cs ++ [some c']) := by
  have get : ∀ {j t}, (w.objs ++ [some s'])[j]? = some (some t) → w.objs[j]? = some (some t) ∨ (j = w.objs.length ∧ t = s') := by
    intro j t ht
    by_cases hj : j < w.objs.length
    · rw [List.getElem?_append_left hj] at ht
      exact Or.inl ht
    · rw [List.getElem?_append_right (by omega)] at ht
      have : j = w.objs.length := by
        by_contra hc
        rw [List.getElem?_eq_none (by simp; omega)] at ht
        exact absurd ht (by simp)
      subst this
      simp at ht
      exact Or.inr ⟨rfl, ht.symm⟩
  have keep : ∀ a b, w.heap[a]? = some (some b) → h'[a]? = some (some b) := fun a b e => hm.keep a b e (by simp)
  refine ⟨by simp [hw.length], ?_, ?_, ?_, ?_⟩
  · intro j
    by_cases hj : j < w.objs.length
    · simp only [List.getElem?_append_left hj, List.getElem?_append_left (hw.length ▸ hj)]
      exact hw.alive j
    · simp only
      rw [List.getElem?_append_right (by omega), List.getElem?_append_right (by rw [← hw.length]; omega), hw.length]
      cases j - cs.length <;> simp
  · intro j t c ht hc
    simp only at ht
    rcases get ht with h1 | ⟨rfl, rfl⟩
    · have hj : j < w.objs.length := by
        by_contra h
        rw [List.getElem?_eq_none (by omega)] at h1
        exact absurd h1 (by simp)
      rw [List.getElem?_append_left (hw.length ▸ hj)] at hc
      exact hf.frame _ _ _ _ (hw.ok j t c h1 hc) (fun a b _ hb => keep a b hb)
    · rw [hw.length] at hc
      simp at hc
      subst hc
      exact hok
  · have key : ∀ (j : Nat) (t : S) (a : Nat), w.objs[j]? = some (some t) → ptr s' = .heap a → ptr t = .heap a → False := by
      intro j t a ht hp ha
      obtain ⟨c, hc, hokt⟩ := hw.content ht
      obtain ⟨b, hb⟩ := hf.live _ _ _ _ hokt ha
      rcases hm.target a hp with h1 | h1
      · simp at h1
      · have := lt_of_live hb; omega
    intro j k t u a ht hu hta hua
    simp only at ht hu
    rcases get ht with h1 | ⟨rfl, rfl⟩
    · rcases get hu with h2 | ⟨rfl, rfl⟩
      · exact hw.distinct j k t u a h1 h2 hta hua
      · exact (key j t a h1 hua hta).elim
    · rcases get hu with h2 | ⟨rfl, rfl⟩
      · exact (key k u a h2 hta hua).elim
      · rfl
  · intro a b hb
    simp only at hb ⊢
    rcases hm.noLeak a b hb with h1 | ⟨_, b', h2⟩
    · exact ⟨w.objs.length, s', by simp, h1⟩
    · obtain ⟨j, t, ht, ha⟩ := hw.noLeak a b' h2
      refine ⟨j, t, ?_, ha⟩
      have hj : j < w.objs.length := by
        by_contra h
        rw [List.getElem?_eq_none (by omega)] at ht
        exact absurd ht (by simp)
      rw [List.getElem?_append_left hj]
      exact ht

theorem WInv.remove (hf : Framed Ok ptr) {w : World V S} {cs : Contents V} (hw : WInv Ok ptr w cs) {i : Nat} {s : S} {h' : Heap V}
    (hs : w.objs[i]? = some (some s)) (hm : Moves w.heap (ptr s) h' .null) :
    WInv Ok ptr ⟨h', w.objs.set i none⟩ (cs.set i none) := by
  have hi : i < w.objs.length := by
    by_contra h
    rw [List.getElem?_eq_none (by omega)] at hs
    exact absurd hs (by simp)
  have hi' : i < cs.length := by rw [← hw.length]; exact hi
  have get : ∀ {j t}, (w.objs.set i none)[j]? = some (some t) → w.objs[j]? = some (some t) ∧ i ≠ j := by
    intro j t ht
    by_cases hj : i = j
    · subst hj
      rw [List.getElem?_set_self hi] at ht
      simp at ht
    · rw [List.getElem?_set_ne hj] at ht
      exact ⟨ht, hj⟩
  refine ⟨by simp [hw.length], ?_, ?_, ?_, ?_⟩
  · intro j
    by_cases hj : i = j
    · subst hj
      simp [List.getElem?_set_self, hi, hi']
    · simp only [List.getElem?_set_ne hj]
      exact hw.alive j
  · intro j t c ht hc
    obtain ⟨ht, hj⟩ := get ht
    simp only [List.getElem?_set_ne hj] at hc
    refine hf.frame _ _ _ _ (hw.ok j t c ht hc) ?_
    intro a b ha hb
    exact hm.keep a b hb (fun hp => hj (hw.distinct i j s t a hs ht hp ha))
  · intro j k t u a ht hu hta hua
    exact hw.distinct j k t u a (get ht).1 (get hu).1 hta hua
  · intro a b hb
    simp only at hb ⊢
    rcases hm.noLeak a b hb with h1 | ⟨h1, b', h2⟩
    · simp at h1
    · obtain ⟨j, t, ht, ha⟩ := hw.noLeak a b' h2
      refine ⟨j, t, ?_, ha⟩
      rw [List.getElem?_set_ne]
      · exact ht
      · rintro rfl
        rw [hs] at ht
        simp only [Option.some.injEq] at ht
        subst ht
        exact h1 ha

end World

/-! ### FastSequence -/

namespace FS

/-- The invariant of one sequence with contents `c`. -/
structure Ok (max : Nat) (h : Heap V) (s : FS V) (c : Block V) : Prop where
  size : c.length = s.size
  le : s.size ≤ s.capacity
  room : max ≤ s.capacity
  stack : s.stack.length = max
  ptr : (max < s.capacity ∧ ∃ a, s.ptr = .heap a) ∨ (s.capacity = max ∧ s.ptr = .stack)
  cells : ∃ b, Sequences.cells h s.stack s.ptr = some b ∧ b.length = s.capacity ∧ Agree c b

theorem framed (max : Nat) : Framed (Ok (V := V) max) FS.ptr where
  frame := by
    rintro h h' s c ⟨h1, h2, h3, h4, h5, b, h6, h7, h8⟩ hk
    refine ⟨h1, h2, h3, h4, h5, b, ?_, h7, h8⟩
    rcases h5 with ⟨_, a, ha⟩ | ⟨_, ha⟩
    · rw [ha] at h6 ⊢
      exact cells_heap (hk a b ha (live_of_cells h6))
    · rw [ha] at h6 ⊢
      exact h6
  live := by
    rintro h s c a ⟨h1, h2, h3, h4, h5, b, h6, h7, h8⟩ ha
    rw [ha] at h6
    exact ⟨b, live_of_cells h6⟩

variable {max : Nat}

theorem grow_spec {h : Heap V} {s : FS V} {c : Block V} (hok : Ok max h s c) {n : Nat} (hn : s.capacity < n) :
    ∃ h' s', grow max h s n = some (h', s') ∧ Ok max h' s' c ∧ Moves h s.ptr h' s'.ptr ∧ s'.size = s.size ∧ s'.capacity = n ∧
      s'.stack = s.stack := by
  obtain ⟨h1, h2, h3, h4, h5, b, h6, h7, h8⟩ := hok
  have hlen : (b.take s.size).length = s.size := by simp; omega
  have hle : (b.take s.size).length ≤ n := by omega
  unfold grow
  rw [readFirst_spec h6 (by omega)]
  simp only [alloc_spec h hle]
  rcases h5 with ⟨hc, a, ha⟩ | ⟨hc, ha⟩
  · rw [if_pos hc, ha]
    rw [ha] at h6
    have hl := live_of_cells h6
    have hal := lt_of_live hl
    have hl' : (h ++ [some (b.take s.size ++ List.replicate (n - (b.take s.size).length) none)])[a]? = some (some b) := by
      rw [List.getElem?_append_left hal]; exact hl
    rw [delete_spec hl']
    refine ⟨_, _, rfl, ⟨h1, ?_, ?_, h4, Or.inl ⟨?_, _, rfl⟩, b.take s.size ++ List.replicate (n - (b.take s.size).length) none, ?_, ?_, ?_⟩,
      .realloc hl _, rfl, rfl, rfl⟩
    · simp only; omega
    · simp only; omega
    · simp only; omega
    · refine cells_heap ?_
      rw [List.getElem?_set_ne (by omega)]
      simp
    · simp only [List.length_append, List.length_replicate]; omega
    · rw [← h1]; exact h8.take _
  · rw [if_neg (by omega), ha]
    refine ⟨_, _, rfl, ⟨h1, ?_, ?_, h4, Or.inl ⟨?_, _, rfl⟩, _, cells_new _ _ _, ?_, ?_⟩, .alloc notHeap_stack _, rfl, rfl, rfl⟩
    · simp only; omega
    · simp only; omega
    · simp only; omega
    · simp only [List.length_append, List.length_replicate]; omega
    · rw [← h1]; exact h8.take _

theorem new_ok (h : Heap V) : Ok max h (FS.new max) [] where
  size := rfl
  le := Nat.zero_le _
  room := Nat.le_refl _
  stack := by simp [FS.new]
  ptr := Or.inr ⟨rfl, rfl⟩
  cells := ⟨_, rfl, by simp [FS.new], .nil _⟩

theorem newSize_spec (h : Heap V) (n : Nat) : ∃ h' s, newSize max h n = some (h', s) ∧ Ok max h' s (List.replicate n none) ∧ Moves h .null h' s.ptr := by
  unfold newSize
  by_cases hn : max < n
  · simp only [if_pos hn, alloc_spec h (vals := []) (Nat.zero_le n)]
    refine ⟨_, _, rfl, ⟨by simp, Nat.le_refl _, Nat.le_of_lt hn, by simp, Or.inl ⟨hn, _, rfl⟩, _, cells_new _ _ _, by simp, .none _ _⟩, .alloc notHeap_null _⟩
  · simp only [if_neg hn]
    exact ⟨_, _, rfl, ⟨by simp, by simp only; omega, Nat.le_refl _, by simp, Or.inr ⟨rfl, rfl⟩, _, rfl, by simp, .none _ _⟩, .same notHeap_null notHeap_stack⟩

theorem newFill_spec (h : Heap V) (n : Nat) (v : V) : ∃ h' s, newFill max h n v = some (h', s) ∧ Ok max h' s (List.replicate n (some v)) ∧
    Moves h .null h' s.ptr := by
  obtain ⟨h1, s1, e, ⟨k1, k2, k3, k4, k5, b, k6, k7, k8⟩, hm⟩ := newSize_spec (max := max) h n
  have hsz : s1.size = n := by rw [← k1]; simp
  unfold newFill
  rw [e]
  obtain ⟨h2, st, e2, c2, m2, l2⟩ := writeFirst_spec k6 (vals := List.replicate n (some v)) (by simp; omega)
  simp only [e2]
  refine ⟨_, _, rfl, ⟨by simp [hsz], k2, k3, by simp only; omega, k5, _, c2, ?_, .self_append _ _⟩, hm.trans m2⟩
  simp only [List.length_append, List.length_replicate, List.length_drop]
  omega

/-- The array is not larger than the contents need it to be. -/
def Tight (max : Nat) (s : FS V) : Prop := s.capacity = if max < s.size then s.size else max

theorem copy_spec {h : Heap V} {s : FS V} {c : Block V} (hok : Ok max h s c) (ht : Tight max s) :
    ∃ h' s', copy max h s = some (h', s') ∧ Ok max h' s' c ∧ Moves h .null h' s'.ptr := by
  obtain ⟨h1, h2, h3, h4, h5, b, h6, h7, h8⟩ := hok
  unfold Tight at ht
  unfold copy
  rw [readFirst_spec h6 (by omega)]
  have hlen : (b.take s.size).length = s.size := by simp; omega
  have hag : ∀ x, Agree c (b.take s.size ++ x) := by intro x; rw [← h1]; exact h8.take _
  by_cases hs : max < s.size
  · simp only [if_pos hs] at ht ⊢
    rw [alloc_spec h (by omega)]
    refine ⟨_, _, rfl, ⟨h1, h2, h3, by simp, Or.inl ⟨by simp only; omega, _, rfl⟩, _, cells_new _ _ _, ?_, hag _⟩, .alloc notHeap_null _⟩
    simp only [List.length_append, List.length_replicate]; omega
  · simp only [if_neg hs] at ht ⊢
    obtain ⟨h', st, e2, c2, m2, l2⟩ := writeFirst_spec (h := h) (stack := List.replicate max none) (p := .stack) rfl (vals := b.take s.size)
      (by simp; omega)
    rw [e2]
    refine ⟨_, _, rfl, ⟨h1, h2, h3, by simpa using l2, Or.inr ⟨ht, rfl⟩, _, c2, ?_, hag _⟩, (Moves.same notHeap_null notHeap_stack).trans m2⟩
    simp only [List.length_append, List.length_drop, List.length_replicate]; omega

theorem destroy_spec {h : Heap V} {s : FS V} {c : Block V} (hok : Ok max h s c) :
    ∃ h', destroy max h s = some h' ∧ Moves h s.ptr h' .null := by
  obtain ⟨h1, h2, h3, h4, h5, b, h6, h7, h8⟩ := hok
  unfold destroy
  rcases h5 with ⟨hc, a, ha⟩ | ⟨hc, ha⟩
  · rw [if_pos hc, ha]
    rw [ha] at h6
    exact ⟨_, delete_spec (live_of_cells h6), .delete notHeap_null⟩
  · rw [if_neg (by omega), ha]
    exact ⟨_, rfl, .same notHeap_stack notHeap_null⟩

/-- Assignments that the code handles: to a sequence that has no heap block or, if the other sequence is long, one that it needs. -/
def CanAssign (max : Nat) (s o : FS V) : Prop := if max < o.size then (max < s.size ↔ max < s.capacity) else s.capacity = max

theorem assign_spec {h : Heap V} {s o : FS V} {c d : Block V} (hok : Ok max h s c) (hoko : Ok max h o d)
    (hne : ∀ a, s.ptr = .heap a → o.ptr ≠ .heap a) (hca : CanAssign max s o) :
    ∃ h' s', assign max h s o = some (h', s') ∧ Ok max h' s' d ∧ Moves h s.ptr h' s'.ptr := by
  obtain ⟨h1, h2, h3, h4, h5, b, h6, h7, h8⟩ := hok
  have hfr := (framed max).frame h
  obtain ⟨k1, k2, k3, k4, k5, e, k6, k7, k8⟩ := id hoko
  unfold assign
  by_cases ho : max < o.size
  · simp only [CanAssign, if_pos ho] at hca ⊢
    have main : ∀ h1 p1, Moves h s.ptr h1 p1 → p1.NotHeap → Ok max h1 o d →
        ∃ h' s', (match readFirst h1 o.stack o.ptr o.size with
          | none => none
          | some vals =>
            match alloc h1 o.size vals with
            | none => none
            | some (h2, a) => some (h2, (⟨o.size, o.size, s.stack, .heap a⟩ : FS V))) = some (h', s') ∧ Ok max h' s' d ∧ Moves h s.ptr h' s'.ptr := by
      rintro h1 p1 m1 np ⟨l1, l2, l3, l4, l5, e', l6, l7, l8⟩
      rw [readFirst_spec l6 (by omega)]
      have hlen : (e'.take o.size).length = o.size := by simp; omega
      simp only [alloc_spec h1 (vals := e'.take o.size) (n := o.size) (by omega)]
      refine ⟨_, _, rfl, ⟨l1, Nat.le_refl _, by simp only; omega, h4, Or.inl ⟨ho, _, rfl⟩, _, cells_new _ _ _, ?_, ?_⟩, m1.trans (.alloc np _)⟩
      · simp only [List.length_append, List.length_replicate]; omega
      · rw [← l1]; exact l8.take _
    rcases h5 with ⟨hc, a, ha⟩ | ⟨hc, ha⟩
    · rw [if_pos (hca.mpr hc), ha]
      rw [ha] at h6
      rw [delete_spec (live_of_cells h6), ← ha]
      refine main _ .null (by rw [ha]; exact .delete notHeap_null) notHeap_null (hfr _ _ _ hoko ?_)
      intro x b' hx hb'
      rw [List.getElem?_set_ne]
      · exact hb'
      · rintro rfl; exact hne a ha hx
    · rw [if_neg (by rw [hca]; omega)]
      exact main h s.ptr (.refl _ _) (by rw [ha]; exact notHeap_stack) hoko
  · simp only [CanAssign, if_neg ho] at hca ⊢
    rcases h5 with ⟨hc, a, ha⟩ | ⟨hc, ha⟩
    · omega
    · rw [readFirst_spec k6 (by omega)]
      have hlen : (e.take o.size).length = o.size := by simp; omega
      obtain ⟨h', st, e2, c2, m2, l2⟩ := writeFirst_spec (h := h) (stack := s.stack) (p := .stack) rfl (vals := e.take o.size) (by omega)
      simp only [e2]
      refine ⟨_, _, rfl, ⟨k1, by simp only; omega, h3, by simp only; omega, Or.inr ⟨hc, rfl⟩, _, c2, ?_, ?_⟩, by rw [ha]; exact m2⟩
      · simp only [List.length_append, List.length_drop]; omega
      · rw [← k1]; exact k8.take _

theorem roomOf {h : Heap V} {s : FS V} {c : Block V} (hmax : 0 < max) (hok : Ok max h s c) :
    ∃ h1 s1, (if s.capacity = s.size then grow max h s (s.capacity * 2) else some (h, s)) = some (h1, s1) ∧ Ok max h1 s1 c ∧
      Moves h s.ptr h1 s1.ptr ∧ s1.size < s1.capacity ∧ s1.stack = s.stack ∧ (s.capacity ≠ s.size → h1 = h ∧ s1 = s) := by
  have h3 := hok.room
  have h2 := hok.le
  by_cases hc : s.capacity = s.size
  · rw [if_pos hc]
    obtain ⟨h1, s1, e, o1, m1, z1, z2, z3⟩ := grow_spec hok (n := s.capacity * 2) (by omega)
    exact ⟨h1, s1, e, o1, m1, by omega, z3, fun h => absurd hc h⟩
  · rw [if_neg hc]
    exact ⟨h, s, rfl, hok, .refl _ _, by omega, rfl, fun _ => ⟨rfl, rfl⟩⟩

theorem push_spec {h : Heap V} {s : FS V} {c : Block V} (hmax : 0 < max) (hok : Ok max h s c) (v : V) :
    ∃ h' s', push max h s v = some (h', s') ∧ Ok max h' s' (c ++ [some v]) ∧ Moves h s.ptr h' s'.ptr := by
  unfold push
  obtain ⟨h1, s1, e, ⟨k1, k2, k3, k4, k5, b, k6, k7, k8⟩, m1, hlt, _⟩ := roomOf hmax hok
  rw [e]
  obtain ⟨h2, st, e2, c2, m2, l2⟩ := writeAt_spec k6 (k := s1.size) (by omega) (some v)
  simp only [e2]
  refine ⟨_, _, rfl, ⟨by simp [k1], hlt, k3, by simp only; omega, k5, _, c2, by simp [k7], ?_⟩, m1.trans m2⟩
  rw [← k1]
  exact k8.push _ (by omega) _ (fun _ h => h)

theorem pushOwn_spec {h : Heap V} {s : FS V} {c : Block V} (hmax : 0 < max) (hok : Ok max h s c) (k : Nat) (x : Option V) (hk : c[k]? = some x)
    (hsafe : ¬ (s.capacity = s.size ∧ max < s.capacity)) :
    ∃ h' s', pushOwn max h s k = some (h', s') ∧ Ok max h' s' (c ++ [x]) ∧ Moves h s.ptr h' s'.ptr := by
  unfold pushOwn
  obtain ⟨h1, s1, e, ⟨k1, k2, k3, k4, k5, b, k6, k7, k8⟩, m1, hlt, hst, hsame⟩ := roomOf hmax hok
  rw [e]
  simp only
  have hkc : k < c.length := by
    by_contra hc
    rw [List.getElem?_eq_none (by omega)] at hk
    exact absurd hk (by simp)
  obtain ⟨j1, j2, j3, j4, j5, b0, j6, j7, j8⟩ := id hok
  have hread : ∃ y, readAt h1 s1.stack s.ptr k = some y ∧ ∀ v, x = some v → y = some v := by
    have hkb : k < b0.length := by omega
    have hcells : Sequences.cells h1 s1.stack s.ptr = some b0 := by
      by_cases hc : s.capacity = s.size
      · rcases j5 with ⟨hc', _⟩ | ⟨hc', ha⟩
        · exact absurd ⟨hc, hc'⟩ hsafe
        · rw [ha] at j6 ⊢
          rw [hst]
          exact j6
      · obtain ⟨rfl, rfl⟩ := hsame hc
        exact j6
    refine ⟨b0[k], ?_, ?_⟩
    · simp [readAt, hcells, hkb]
    · rintro v rfl
      have := j8 k v hk
      rw [List.getElem?_eq_getElem hkb] at this
      injection this
  obtain ⟨y, hy, hxy⟩ := hread
  rw [hy]
  obtain ⟨h2, st, e2, c2, m2, l2⟩ := writeAt_spec k6 (k := s1.size) (by omega) y
  simp only [e2]
  refine ⟨_, _, rfl, ⟨by simp [k1], hlt, k3, by simp only; omega, k5, _, c2, by simp [k7], ?_⟩, m1.trans m2⟩
  rw [← k1]
  exact k8.push _ (by omega) _ hxy

theorem resize_spec {h : Heap V} {s : FS V} {c : Block V} (hok : Ok max h s c) (n : Nat) :
    ∃ h' s', resize max h s n = some (h', s') ∧ Ok max h' s' (c.take n ++ List.replicate (n - c.length) none) ∧ Moves h s.ptr h' s'.ptr ∧ s'.size = n := by
  unfold resize
  obtain ⟨h1, s1, e, ⟨k1, k2, k3, k4, k5, b, k6, k7, k8⟩, m1, hle⟩ : ∃ h1 s1, (if s.capacity < n then grow max h s n else some (h, s)) = some (h1, s1) ∧
      Ok max h1 s1 c ∧ Moves h s.ptr h1 s1.ptr ∧ n ≤ s1.capacity := by
    by_cases hc : s.capacity < n
    · rw [if_pos hc]
      obtain ⟨h1, s1, e, o1, m1, z1, z2, z3⟩ := grow_spec hok hc
      exact ⟨h1, s1, e, o1, m1, by omega⟩
    · rw [if_neg hc]
      exact ⟨h, s, rfl, hok, .refl _ _, by omega⟩
  rw [e]
  refine ⟨_, _, rfl, ⟨?_, hle, k3, k4, k5, b, k6, k7, k8.prefix _ _⟩, m1, rfl⟩
  simp; omega

theorem reserve_spec {h : Heap V} {s : FS V} {c : Block V} (hok : Ok max h s c) (n : Nat) :
    ∃ h' s', reserve max h s n = some (h', s') ∧ Ok max h' s' c ∧ Moves h s.ptr h' s'.ptr := by
  unfold reserve
  by_cases hc : s.capacity < n
  · rw [if_pos hc]
    obtain ⟨h1, s1, e, o1, m1, z1, z2, z3⟩ := grow_spec hok hc
    exact ⟨h1, s1, e, o1, m1⟩
  · rw [if_neg hc]
    exact ⟨h, s, rfl, hok, .refl _ _⟩

theorem clear_spec {h : Heap V} {s : FS V} {c : Block V} (hok : Ok max h s c) :
    ∃ h' s', clear max h s = some (h', s') ∧ Ok max h' s' [] ∧ Moves h s.ptr h' s'.ptr := by
  obtain ⟨h1, h2, h3, h4, h5, b, h6, h7, h8⟩ := hok
  unfold clear
  rcases h5 with ⟨hc, a, ha⟩ | ⟨hc, ha⟩
  · rw [if_pos hc, ha]
    rw [ha] at h6
    rw [delete_spec (live_of_cells h6)]
    exact ⟨_, _, rfl, ⟨rfl, Nat.zero_le _, Nat.le_refl _, h4, Or.inr ⟨rfl, rfl⟩, _, rfl, h4, .nil _⟩, .delete notHeap_stack⟩
  · rw [if_neg (by omega), ha]
    exact ⟨_, _, rfl, ⟨rfl, Nat.zero_le _, Nat.le_refl _, h4, Or.inr ⟨rfl, rfl⟩, _, rfl, h4, .nil _⟩, .refl _ _⟩

theorem assignRange_spec {h : Heap V} {s : FS V} {c : Block V} (hok : Ok max h s c) (vs : List V) :
    ∃ h' s', assignRange max h s vs = some (h', s') ∧ Ok max h' s' (vs.map some) ∧ Moves h s.ptr h' s'.ptr := by
  unfold assignRange
  obtain ⟨h1, s1, e, ⟨k1, k2, k3, k4, k5, b, k6, k7, k8⟩, m1, hsz⟩ := resize_spec hok vs.length
  rw [e]
  obtain ⟨h2, st, e2, c2, m2, l2⟩ := writeFirst_spec k6 (vals := vs.map some) (by simp; omega)
  simp only [e2]
  refine ⟨_, _, rfl, ⟨by simp [hsz], k2, k3, by simp only; omega, k5, _, c2, ?_, .self_append _ _⟩, m1.trans m2⟩
  simp only [List.length_append, List.length_map, List.length_drop]; omega

theorem set_spec {h : Heap V} {s : FS V} {c : Block V} (hok : Ok max h s c) (k : Nat) (v : V) (hk : k < c.length) :
    ∃ h' s', set h s k v = some (h', s') ∧ Ok max h' s' (c.set k (some v)) ∧ Moves h s.ptr h' s'.ptr := by
  obtain ⟨h1, h2, h3, h4, h5, b, h6, h7, h8⟩ := hok
  unfold set
  obtain ⟨h', st, e2, c2, m2, l2⟩ := writeAt_spec h6 (k := k) (by omega) (some v)
  simp only [e2]
  exact ⟨_, _, rfl, ⟨by simp [h1], h2, h3, by simp only; omega, h5, _, c2, by simp [h7], h8.set _ _ (by omega)⟩, m2⟩

theorem get_spec {h : Heap V} {s : FS V} {c : Block V} (hok : Ok max h s c) (k : Nat) (hk : k < c.length) :
    ∃ x, get h s k = some x ∧ ∀ v, c[k]? = some (some v) → x = some v := by
  obtain ⟨h1, h2, h3, h4, h5, b, h6, h7, h8⟩ := hok
  have hkb : k < b.length := by omega
  refine ⟨b[k], by simp [get, readAt, h6, hkb], ?_⟩
  intro v hv
  have := h8 k v hv
  rw [List.getElem?_eq_getElem hkb] at this
  injection this

end FS

/-! ### BufferVector -/

namespace BV

/-- The invariant of one vector with contents `c`. -/
structure Ok (h : Heap V) (s : BV) (c : Block V) : Prop where
  size : c.length = s.size
  le : s.size ≤ s.capacity
  store : (s.capacity = 0 ∧ (s.ptr = .null ∨ s.ptr = .wild)) ∨
    (0 < s.capacity ∧ ∃ a b, s.ptr = .heap a ∧ h[a]? = some (some b) ∧ b.length = s.capacity ∧ Agree c b)

theorem framed : Framed (Ok (V := V)) BV.ptr where
  frame := by
    rintro h h' s c ⟨h1, h2, h3⟩ hk
    refine ⟨h1, h2, ?_⟩
    rcases h3 with h3 | ⟨h3, a, b, h4, h5, h6, h7⟩
    · exact Or.inl h3
    · exact Or.inr ⟨h3, a, b, h4, hk a b h4 h5, h6, h7⟩
  live := by
    rintro h s c a ⟨h1, h2, h3⟩ ha
    rcases h3 with ⟨_, h3 | h3⟩ | ⟨h3, a', b, h4, h5, h6, h7⟩
    · rw [h3] at ha; simp at ha
    · rw [h3] at ha; simp at ha
    · rw [h4] at ha; injection ha with ha; subst ha; exact ⟨b, h5⟩

theorem new_ok (h : Heap V) : Ok h BV.new [] := ⟨rfl, Nat.le_refl _, Or.inl ⟨rfl, Or.inl rfl⟩⟩

theorem notHeap_of {p : Ptr} (hp : p = .null ∨ p = .wild) : p.NotHeap := by
  rcases hp with rfl | rfl
  · exact notHeap_null
  · exact notHeap_wild

theorem newSize_spec (h : Heap V) (n : Nat) : ∃ h' s, newSize h n = some (h', s) ∧ Ok h' s (List.replicate n none) ∧ Moves h .null h' s.ptr := by
  unfold newSize
  by_cases hn : n ≠ 0
  · simp only [if_pos hn, alloc_spec h (vals := []) (Nat.zero_le n)]
    exact ⟨_, _, rfl, ⟨by simp, Nat.le_refl _, Or.inr ⟨by simp only; omega, _, List.replicate n none, rfl, by simp, by simp, .none _ _⟩⟩, .alloc notHeap_null _⟩
  · rw [if_neg hn]
    have : n = 0 := by omega
    subst this
    exact ⟨_, _, rfl, ⟨rfl, Nat.le_refl _, Or.inl ⟨rfl, Or.inr rfl⟩⟩, .same notHeap_null notHeap_wild⟩

theorem newFill_spec (h : Heap V) (n : Nat) (v : V) (hn : n ≠ 0) : ∃ h' s, newFill h n v = some (h', s) ∧
    Ok h' s (List.replicate n (some v)) ∧ Moves h .null h' s.ptr := by
  unfold newFill
  rw [alloc_spec h (by simp)]
  exact ⟨_, _, rfl, ⟨by simp, Nat.le_refl _, Or.inr ⟨by simp only; omega, _, _, rfl, by simp; rfl, by simp, .self_append _ _⟩⟩, .alloc notHeap_null _⟩

theorem copy_spec {h : Heap V} {s : BV} {c : Block V} (hok : Ok h s c) :
    ∃ h' s', copy h s = some (h', s') ∧ Ok h' s' c ∧ Moves h .null h' s'.ptr := by
  obtain ⟨h1, h2, h3⟩ := hok
  unfold copy
  by_cases hs : s.size ≠ 0
  · rw [if_pos hs]
    rcases h3 with ⟨h3, _⟩ | ⟨h3, a, b, h4, h5, h6, h7⟩
    · omega
    · rw [h4, readFirst_spec (cells_heap h5) (by omega)]
      have hlen : (b.take s.size).length = s.size := by simp; omega
      simp only [alloc_spec h (vals := b.take s.size) (n := s.size) (by omega)]
      refine ⟨_, _, rfl, ⟨h1, Nat.le_refl _, Or.inr ⟨by simp only; omega, _, _, rfl, by simp; rfl, ?_, ?_⟩⟩, .alloc notHeap_null _⟩
      · simp only [List.length_append, List.length_replicate]; omega
      · rw [← h1]; exact h7.take _
  · rw [if_neg hs]
    have h0 : c = [] := List.length_eq_zero_iff.mp (by omega)
    subst h0
    exact ⟨_, _, rfl, ⟨rfl, Nat.le_refl _, Or.inl ⟨rfl, Or.inr rfl⟩⟩, .same notHeap_null notHeap_wild⟩

theorem destroy_spec {h : Heap V} {s : BV} {c : Block V} (hok : Ok h s c) : ∃ h', destroy h s = some h' ∧ Moves h s.ptr h' .null := by
  obtain ⟨h1, h2, h3⟩ := hok
  unfold destroy
  rcases h3 with ⟨h3, hp⟩ | ⟨h3, a, b, h4, h5, h6, h7⟩
  · rw [if_neg (by omega)]
    exact ⟨_, rfl, .same (notHeap_of hp) notHeap_null⟩
  · rw [if_pos (by omega), h4]
    exact ⟨_, delete_spec h5, .delete notHeap_null⟩

theorem assign_spec {h : Heap V} {s o : BV} {c d : Block V} (hok : Ok h s c) (hoko : Ok h o d)
    (hne : ∀ a, s.ptr = .heap a → o.ptr ≠ .heap a) (hca : s.ptr = .wild → o.size = 0) :
    ∃ h' s', assign h s o = some (h', s') ∧ Ok h' s' d ∧ Moves h s.ptr h' s'.ptr := by
  obtain ⟨h1, h2, h3⟩ := hok
  obtain ⟨k1, k2, k3⟩ := id hoko
  unfold assign
  by_cases hs : s.capacity < o.size
  · rw [if_pos hs]
    have main : ∀ h1 p1, Moves h s.ptr h1 p1 → p1.NotHeap → Ok h1 o d →
        ∃ h' s', (match readFirst h1 [] o.ptr o.size with
          | none => none
          | some vals =>
            match alloc h1 o.size vals with
            | none => none
            | some (h2, a) => some (h2, (⟨o.size, o.size, .heap a⟩ : BV))) = some (h', s') ∧ Ok h' s' d ∧ Moves h s.ptr h' s'.ptr := by
      rintro h1 p1 m1 np ⟨l1, l2, l3⟩
      rcases l3 with ⟨l3, _⟩ | ⟨l3, a, e, l4, l5, l6, l7⟩
      · omega
      rw [l4, readFirst_spec (cells_heap l5) (by omega)]
      have hlen : (e.take o.size).length = o.size := by simp; omega
      simp only [alloc_spec h1 (vals := e.take o.size) (n := o.size) (by omega)]
      refine ⟨_, _, rfl, ⟨l1, Nat.le_refl _, Or.inr ⟨by simp only; omega, _, _, rfl, by simp; rfl, ?_, ?_⟩⟩, m1.trans (.alloc np _)⟩
      · simp only [List.length_append, List.length_replicate]; omega
      · rw [← l1]; exact l7.take _
    rcases h3 with ⟨h3, hp⟩ | ⟨h3, a, b, h4, h5, h6, h7⟩
    · rcases hp with hp | hp
      · rw [hp]
        simp only [delete]
        have := main h s.ptr (.refl _ _) (by rw [hp]; exact notHeap_null) hoko
        rw [hp] at this
        exact this
      · have := hca hp; omega
    · rw [h4, delete_spec h5, ← h4]
      refine main _ .null (by rw [h4]; exact .delete notHeap_null) notHeap_null (framed.frame _ _ _ _ hoko ?_)
      intro x b' hx hb'
      rw [List.getElem?_set_ne]
      · exact hb'
      · rintro rfl; exact hne a h4 hx
  · rw [if_neg hs]
    by_cases ho : o.size = 0
    · have h0 : d = [] := List.length_eq_zero_iff.mp (by omega)
      subst h0
      simp only [ho, readFirst, writeFirst, if_true, List.length_nil]
      refine ⟨_, _, rfl, ⟨rfl, Nat.zero_le _, ?_⟩, .refl _ _⟩
      rcases h3 with h3 | ⟨h3, a, b, h4, h5, h6, h7⟩
      · exact Or.inl h3
      · exact Or.inr ⟨h3, a, b, h4, h5, h6, .nil _⟩
    · rcases k3 with ⟨k3, _⟩ | ⟨k3, a', e, k4, k5, k6, k7⟩
      · omega
      rcases h3 with ⟨h3, _⟩ | ⟨h3, a, b, h4, h5, h6, h7⟩
      · omega
      rw [k4, readFirst_spec (cells_heap k5) (by omega), h4]
      have hlen : (e.take o.size).length = o.size := by simp; omega
      obtain ⟨h', st, e2, c2, m2, l2⟩ := writeFirst_spec (stack := []) (cells_heap h5) (vals := e.take o.size) (by omega)
      simp only [e2]
      refine ⟨_, _, rfl, ⟨k1, by simp only; omega, Or.inr ⟨h3, a, _, rfl, live_of_cells c2, ?_, ?_⟩⟩, m2⟩
      · simp only [List.length_append, List.length_drop]; omega
      · rw [← k1]; exact k7.take _

theorem grow_spec {h : Heap V} {s : BV} {c : Block V} (hok : Ok h s c) {n : Nat} (hn : s.capacity < n) (h0 : s.size ≠ 0) :
    ∃ h' s', grow h s n = some (h', s') ∧ Ok h' s' c ∧ Moves h s.ptr h' s'.ptr ∧ s'.size = s.size ∧ s'.capacity = n := by
  obtain ⟨h1, h2, h3⟩ := hok
  rcases h3 with ⟨h3, _⟩ | ⟨h3, a, b, h4, h5, h6, h7⟩
  · omega
  unfold grow
  rw [h4, readFirst_spec (cells_heap h5) (by omega)]
  have hlen : (b.take s.size).length = s.size := by simp; omega
  simp only [alloc_spec h (vals := b.take s.size) (n := n) (by omega)]
  have hal := lt_of_live h5
  have hl' : (h ++ [some (b.take s.size ++ List.replicate (n - (b.take s.size).length) none)])[a]? = some (some b) := by
    rw [List.getElem?_append_left hal]; exact h5
  rw [delete_spec hl']
  refine ⟨_, _, rfl, ⟨h1, by simp only; omega, Or.inr ⟨by simp only; omega, _,
    b.take s.size ++ List.replicate (n - (b.take s.size).length) none, rfl, ?_, ?_, ?_⟩⟩, .realloc h5 _, rfl, rfl⟩
  · rw [List.getElem?_set_ne (by omega)]; simp
  · simp only [List.length_append, List.length_replicate]; omega
  · rw [← h1]; exact h7.take _

theorem fresh_spec {h : Heap V} {s : BV} {c : Block V} (hok : Ok h s c) {n : Nat} (hn : 0 < n) (h0 : s.size = 0) (hc : s.capacity = 0) :
    ∃ h' s', fresh h s n = some (h', s') ∧ Ok h' s' c ∧ Moves h s.ptr h' s'.ptr ∧ s'.size = s.size ∧ s'.capacity = n := by
  obtain ⟨h1, h2, h3⟩ := hok
  rcases h3 with ⟨h3, hp⟩ | ⟨h3, _⟩
  · unfold fresh
    rw [alloc_spec h (vals := []) (Nat.zero_le n)]
    have hnil : c = [] := List.length_eq_zero_iff.mp (by omega)
    subst hnil
    exact ⟨_, _, rfl, ⟨h1, by simp only; omega, Or.inr ⟨hn, _, List.replicate n none, rfl, by simp, by simp, .nil _⟩⟩, .alloc (notHeap_of hp) _, rfl, rfl⟩
  · omega

theorem room_spec {h : Heap V} {s : BV} {c : Block V} (hok : Ok h s c) :
    ∃ h1 s1, room h s = some (h1, s1) ∧ Ok h1 s1 c ∧ Moves h s.ptr h1 s1.ptr ∧ s1.size < s1.capacity ∧ s1.size = s.size ∧
      (s.capacity ≠ s.size → h1 = h ∧ s1 = s) := by
  have h2 := hok.le
  unfold room
  by_cases hc : s.capacity = s.size
  · rw [if_pos hc]
    by_cases hs : s.size ≠ 0
    · rw [if_pos hs]
      obtain ⟨h1, s1, e, o1, m1, z1, z2⟩ := grow_spec hok (n := s.capacity * 2) (by omega) hs
      exact ⟨h1, s1, e, o1, m1, by omega, z1, fun h => absurd hc h⟩
    · rw [if_neg hs]
      obtain ⟨h1, s1, e, o1, m1, z1, z2⟩ := fresh_spec hok (n := 2) (by omega) (by omega) (by omega)
      exact ⟨h1, s1, e, o1, m1, by omega, z1, fun h => absurd hc h⟩
  · rw [if_neg hc]
    exact ⟨h, s, rfl, hok, .refl _ _, by omega, rfl, fun _ => ⟨rfl, rfl⟩⟩

theorem push_spec {h : Heap V} {s : BV} {c : Block V} (hok : Ok h s c) (v : V) :
    ∃ h' s', push h s v = some (h', s') ∧ Ok h' s' (c ++ [some v]) ∧ Moves h s.ptr h' s'.ptr := by
  unfold push
  obtain ⟨h1, s1, e, ⟨k1, k2, k3⟩, m1, hlt, hz, _⟩ := room_spec hok
  rw [e]
  rcases k3 with ⟨k3, _⟩ | ⟨k3, a, b, k4, k5, k6, k7⟩
  · omega
  obtain ⟨h2, st, e2, c2, m2, l2⟩ := writeAt_spec (stack := []) (cells_heap k5) (k := s1.size) (by omega) (some v)
  simp only [k4, e2]
  rw [k4] at m1
  refine ⟨_, _, rfl, ⟨by simp [k1], hlt, Or.inr ⟨k3, a, _, rfl, live_of_cells c2, by simp [k6], ?_⟩⟩, m1.trans m2⟩
  rw [← k1]
  exact k7.push _ (by omega) _ (fun _ h => h)

theorem pushOwn_spec {h : Heap V} {s : BV} {c : Block V} (hok : Ok h s c) (k : Nat) (x : Option V) (hk : c[k]? = some x)
    (hsafe : s.capacity ≠ s.size) :
    ∃ h' s', pushOwn h s k = some (h', s') ∧ Ok h' s' (c ++ [x]) ∧ Moves h s.ptr h' s'.ptr := by
  have hkc : k < c.length := by
    by_contra hc
    rw [List.getElem?_eq_none (by omega)] at hk
    exact absurd hk (by simp)
  unfold pushOwn
  obtain ⟨h1, s1, e, hok1, m1, hlt, hz, hsame⟩ := room_spec hok
  obtain ⟨rfl, rfl⟩ := hsame hsafe
  rw [e]
  obtain ⟨k1, k2, k3⟩ := hok1
  rcases k3 with ⟨k3, _⟩ | ⟨k3, a, b, k4, k5, k6, k7⟩
  · omega
  have hkb : k < b.length := by omega
  simp only [k4, readAt, cells_heap k5, List.getElem?_eq_getElem hkb]
  obtain ⟨h2, st, e2, c2, m2, l2⟩ := writeAt_spec (stack := []) (cells_heap k5) (k := s1.size) (by omega) b[k]
  simp only [e2]
  refine ⟨_, _, rfl, ⟨by simp [k1], hlt, Or.inr ⟨k3, a, _, rfl, live_of_cells c2, by simp [k6], ?_⟩⟩, m2⟩
  rw [← k1]
  refine k7.push _ (by omega) _ ?_
  rintro v rfl
  have := k7 k v hk
  rw [List.getElem?_eq_getElem hkb] at this
  injection this

/-- Growing an empty vector that has memory loses that memory. -/
def CanResize (s : BV) (n : Nat) : Prop := s.size = 0 → 0 < s.capacity → n ≤ s.capacity

theorem resize_spec {h : Heap V} {s : BV} {c : Block V} (hok : Ok h s c) (n : Nat) (hcan : CanResize s n) :
    ∃ h' s', resize h s n = some (h', s') ∧ Ok h' s' (c.take n ++ List.replicate (n - c.length) none) ∧ Moves h s.ptr h' s'.ptr ∧ s'.size = n := by
  unfold resize
  obtain ⟨h1, s1, e, ⟨k1, k2, k3⟩, m1, hle⟩ : ∃ h1 s1, (if s.capacity < n then (if s.size ≠ 0 then grow h s n else fresh h s n) else some (h, s)) = some (h1, s1) ∧
      Ok h1 s1 c ∧ Moves h s.ptr h1 s1.ptr ∧ n ≤ s1.capacity := by
    by_cases hc : s.capacity < n
    · rw [if_pos hc]
      by_cases hs : s.size ≠ 0
      · rw [if_pos hs]
        obtain ⟨h1, s1, e, o1, m1, z1, z2⟩ := grow_spec hok hc hs
        exact ⟨h1, s1, e, o1, m1, by omega⟩
      · rw [if_neg hs]
        have hz : s.size = 0 := by omega
        have hcap : s.capacity = 0 := by
          by_contra hcap
          have := hcan hz (by omega)
          omega
        obtain ⟨h1, s1, e, o1, m1, z1, z2⟩ := fresh_spec hok (n := n) (by omega) hz hcap
        exact ⟨h1, s1, e, o1, m1, by omega⟩
    · rw [if_neg hc]
      exact ⟨h, s, rfl, hok, .refl _ _, by omega⟩
  rw [e]
  refine ⟨_, _, rfl, ⟨?_, hle, ?_⟩, m1, rfl⟩
  · simp; omega
  · rcases k3 with k3 | ⟨k3, a, b, k4, k5, k6, k7⟩
    · exact Or.inl k3
    · exact Or.inr ⟨k3, a, b, k4, k5, k6, k7.prefix _ _⟩

theorem clear_spec {h : Heap V} {s : BV} {c : Block V} (hok : Ok h s c) :
    ∃ h' s', clear h s = some (h', s') ∧ Ok h' s' [] ∧ Moves h s.ptr h' s'.ptr := by
  obtain ⟨h1, h2, h3⟩ := hok
  refine ⟨_, _, rfl, ⟨rfl, Nat.zero_le _, ?_⟩, .refl _ _⟩
  rcases h3 with h3 | ⟨h3, a, b, h4, h5, h6, h7⟩
  · exact Or.inl h3
  · exact Or.inr ⟨h3, a, b, h4, h5, h6, .nil _⟩

theorem assignRange_spec {h : Heap V} {s : BV} {c : Block V} (hok : Ok h s c) (vs : List V) (hcan : CanResize s vs.length) :
    ∃ h' s', assignRange h s vs = some (h', s') ∧ Ok h' s' (vs.map some) ∧ Moves h s.ptr h' s'.ptr := by
  unfold assignRange
  obtain ⟨h1, s1, e, ⟨k1, k2, k3⟩, m1, hsz⟩ := resize_spec hok vs.length hcan
  rw [e]
  rcases k3 with ⟨k3, hp⟩ | ⟨k3, a, b, k4, k5, k6, k7⟩
  · have hnil : vs = [] := List.length_eq_zero_iff.mp (by omega)
    subst hnil
    simp only [writeFirst, List.map_nil, List.length_nil, if_true]
    exact ⟨_, _, rfl, ⟨by simp [hsz], k2, Or.inl ⟨k3, hp⟩⟩, m1⟩
  · obtain ⟨h2, st, e2, c2, m2, l2⟩ := writeFirst_spec (stack := []) (cells_heap k5) (vals := vs.map some) (by simp; omega)
    simp only [k4, e2]
    rw [k4] at m1
    refine ⟨_, _, rfl, ⟨by simp [hsz], k2, Or.inr ⟨k3, a, _, k4, live_of_cells c2, ?_, .self_append _ _⟩⟩, by rw [k4]; exact m1.trans m2⟩
    simp only [List.length_append, List.length_map, List.length_drop]; omega

theorem set_spec {h : Heap V} {s : BV} {c : Block V} (hok : Ok h s c) (k : Nat) (v : V) (hk : k < c.length) :
    ∃ h' s', set h s k v = some (h', s') ∧ Ok h' s' (c.set k (some v)) ∧ Moves h s.ptr h' s'.ptr := by
  obtain ⟨h1, h2, h3⟩ := hok
  rcases h3 with ⟨h3, hp⟩ | ⟨h3, a, b, h4, h5, h6, h7⟩
  · omega
  unfold set
  obtain ⟨h', st, e2, c2, m2, l2⟩ := writeAt_spec (stack := []) (cells_heap h5) (k := k) (by omega) (some v)
  rw [h4]
  simp only [e2]
  exact ⟨_, _, rfl, ⟨by simp [h1], h2, Or.inr ⟨h3, a, _, h4, live_of_cells c2, by simp [h6], h7.set _ _ (by omega)⟩⟩, by rw [h4]; exact m2⟩

theorem get_spec {h : Heap V} {s : BV} {c : Block V} (hok : Ok h s c) (k : Nat) (hk : k < c.length) :
    ∃ x, get h s k = some x ∧ ∀ v, c[k]? = some (some v) → x = some v := by
  obtain ⟨h1, h2, h3⟩ := hok
  rcases h3 with ⟨h3, hp⟩ | ⟨h3, a, b, h4, h5, h6, h7⟩
  · omega
  have hkb : k < b.length := by omega
  refine ⟨b[k], by simp [get, readAt, h4, cells_heap h5, hkb], ?_⟩
  intro v hv
  have := h7 k v hv
  rw [List.getElem?_eq_getElem hkb] at this
  injection this

end BV

end Sequences
end OpenGM
