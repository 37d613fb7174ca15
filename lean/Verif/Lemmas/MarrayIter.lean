import Verif.Lemmas.MarrayViews
/-
Iterators of views.
-/
namespace OpenGM
open Spec Walkers
namespace Marray
open Geometry
namespace Iter

theorem getElem?_mid {α : Type} (pre t : List α) (x : α) {k : Nat} (h : k = pre.length) : (pre ++ x :: t)[k]? = some x := by
  subst h; simp

theorem nextLoop_aux (g : Geometry) : ∀ (s t t' st preN preS pre : List Nat) (it : Iter),
    preN.length = pre.length → preS.length = pre.length → g.shape = preN ++ s → g.strides = preS ++ st → it.coords = pre ++ t →
    InShape s t → st.length = s.length → odoNext s t = some t' → dot st t ≤ it.pointer →
    nextLoop g (List.range' pre.length s.length) it = some ⟨it.index, it.pointer - dot st t + dot st t', pre ++ t'⟩
  | [], t, t', _, _, _, _, _, _, _, _, _, _, _, _, h, _ => by simp [odoNext] at h
  | _ :: _, [], _, _, _, _, _, _, _, _, _, _, _, hs, _, _, _ => by simp [InShape] at hs
  | _ :: _, _ :: _, _, [], _, _, _, _, _, _, _, _, _, _, h, _, _ => by simp at h
  | n :: s, x :: t, t', u :: st, preN, preS, pre, it, hpN, hpS, hN, hS, hC, hs, hl, ho, hp => by
    rw [List.length_cons, List.range'_succ, nextLoop]
    rw [hC, hN, hS, getElem?_mid _ _ _ rfl, getElem?_mid _ _ _ hpN.symm, getElem?_mid _ _ _ hpS.symm]
    simp only
    have hx : x < n := hs.1
    simp only [odoNext] at ho
    by_cases hc : x + 1 < n
    · rw [if_pos hc] at ho
      injection ho with ho
      subst ho
      rw [if_neg (by omega), setAt_append, Option.map_some]
      simp only [dot] at hp ⊢
      congr 2
      rw [Nat.add_mul]
      omega
    · rw [if_neg hc] at ho
      simp only [Option.map_eq_some_iff] at ho
      obtain ⟨t'', ho, rfl⟩ := ho
      simp only [dot] at hp
      have hle : u * x ≤ it.pointer := by rw [Nat.mul_comm]; omega
      rw [if_pos (by omega), if_pos hle, setAt_append, Option.bind_some]
      have ih := nextLoop_aux g s t t'' st (preN ++ [n]) (preS ++ [u]) (pre ++ [0])
        { it with pointer := it.pointer - u * x, coords := pre ++ 0 :: t } (by simp [hpN]) (by simp [hpS]) (by simp [hN])
        (by simp [hS]) (by simp) hs.2 (by simpa using hl) ho (by simp only; rw [Nat.mul_comm]; omega)
      rw [List.length_append, List.length_singleton] at ih
      rw [ih]
      simp only [dot, List.append_assoc, List.singleton_append]
      congr 2
      rw [Nat.mul_comm u x]
      omega

theorem nextLoop_rev (g : Geometry) : ∀ (s t t' st postN postS post : List Nat) (it : Iter),
    g.shape = s.reverse ++ postN → g.strides = st.reverse ++ postS → it.coords = t.reverse ++ post →
    InShape s t → st.length = s.length → odoNext s t = some t' → dot st t ≤ it.pointer →
    nextLoop g (List.range s.length).reverse it = some ⟨it.index, it.pointer - dot st t + dot st t', t'.reverse ++ post⟩
  | [], t, t', _, _, _, _, _, _, _, _, _, _, h, _ => by simp [odoNext] at h
  | _ :: _, [], _, _, _, _, _, _, _, _, _, hs, _, _, _ => by simp [InShape] at hs
  | _ :: _, _ :: _, _, [], _, _, _, _, _, _, _, _, h, _, _ => by simp at h
  | n :: s, x :: t, t', u :: st, postN, postS, post, it, hN, hS, hC, hs, hl, ho, hp => by
    have hlt := inShape_length hs.2
    rw [List.length_cons, List.range_succ, List.reverse_append, List.reverse_singleton, List.singleton_append, nextLoop]
    simp only [List.reverse_cons, List.append_assoc, List.singleton_append] at hN hS hC
    have hl' : st.length = s.length := by simpa using hl
    rw [hC, hN, hS, getElem?_mid _ _ _ (by simp [hlt]), getElem?_mid _ _ _ (by simp), getElem?_mid _ _ _ (by simp [hl'])]
    simp only
    have hx : x < n := hs.1
    simp only [odoNext] at ho
    have hset : ∀ y : Nat, setAt (t.reverse ++ x :: post) s.length y = some (t.reverse ++ y :: post) := by
      intro y
      have := setAt_append t.reverse post x y
      rwa [List.length_reverse, hlt] at this
    by_cases hc : x + 1 < n
    · rw [if_pos hc] at ho
      injection ho with ho
      subst ho
      rw [if_neg (by omega), hset, Option.map_some]
      simp only [dot] at hp ⊢
      simp only [List.reverse_cons, List.append_assoc, List.singleton_append]
      congr 2
      rw [Nat.add_mul]
      omega
    · rw [if_neg hc] at ho
      simp only [Option.map_eq_some_iff] at ho
      obtain ⟨t'', ho, rfl⟩ := ho
      simp only [dot] at hp
      have hle : u * x ≤ it.pointer := by rw [Nat.mul_comm]; omega
      rw [if_pos (by omega), if_pos hle, hset, Option.bind_some]
      have ih := nextLoop_rev g s t t'' st (n :: postN) (u :: postS) (0 :: post)
        { it with pointer := it.pointer - u * x, coords := t.reverse ++ 0 :: post } hN hS rfl
        hs.2 hl' ho (by simp only; rw [Nat.mul_comm]; omega)
      rw [ih]
      simp only [dot, List.reverse_cons, List.append_assoc, List.singleton_append]
      congr 2
      rw [Nat.mul_comm u x]
      omega

theorem inShape_positive : ∀ {s c : List Nat}, InShape s c → Positive s
  | [], _, _ => by intro n hn; simp at hn
  | _ :: _, [], h => by simp [InShape] at h
  | m :: s, x :: c, h => by
    intro n hn
    have h1 := h.1
    rcases List.mem_cons.mp hn with rfl | hn
    · omega
    · exact inShape_positive h.2 n hn

/-- Consecutive tuples of `allTuples`. -/
theorem odoNext_of_getElem? {s c c' : List Nat} {i : Nat} (h1 : (allTuples s)[i]? = some c) (h2 : (allTuples s)[i + 1]? = some c') :
    odoNext s c = some c' := by
  have hin : InShape s c := (idx_of_getElem? h1).1
  have hp : Positive s := inShape_positive hin
  have hch := (odo_chain s hp).1
  rw [List.isChain_iff_getElem] at hch
  have hl : i + 1 < (allTuples s).length := by
    by_contra hc
    rw [List.getElem?_eq_none (by omega)] at h2
    simp at h2
  have := hch i hl
  rw [List.getElem?_eq_getElem (by omega)] at h1 h2
  injection h1 with h1
  injection h2 with h2
  rw [h1, h2] at this
  exact this

/-- The iterator stands at the element with scalar index `i`. -/
def At (g : Geometry) (i : Nat) (it : Iter) : Prop :=
  it.index = i ∧ ∃ c, (scan g.order g.shape)[i]? = some c ∧ it.pointer = dot g.strides c ∧ (g.isSimple = false → it.coords = c)

theorem scan_some {g : Geometry} (h : g.Inv) {i : Nat} (hi : i < g.size) : ∃ c, (scan g.order g.shape)[i]? = some c := by
  rw [h.size, ← length_scan g.order] at hi
  exact ⟨_, List.getElem?_eq_getElem hi⟩

theorem simple_dot {g : Geometry} (h : g.Inv) (hs : g.isSimple = true) {i : Nat} {c : List Nat}
    (hc : (scan g.order g.shape)[i]? = some c) : dot g.strides c = i := by
  rw [h.simple hs, h.shapeStrides, (scan_spec hc).2]

theorem make_spec {g : Geometry} (h : g.Inv) (hd : g.isSimple = true ∨ g.shape ≠ []) {i : Nat} (hi : i < g.size) :
    ∃ it, make g i = some it ∧ At g i it := by
  obtain ⟨c, hc⟩ := scan_some h hi
  unfold make
  rw [if_neg (by omega)]
  by_cases hs : g.isSimple = true
  · rw [if_pos hs, indexToOffset, if_pos hs, Option.map_some]
    refine ⟨_, rfl, rfl, c, hc, ?_, by simp [hs]⟩
    simp only
    rw [simple_dot h hs hc, Nat.zero_add]
  · rw [if_neg hs, if_neg (by omega)]
    have hd' : g.shape ≠ [] := by
      rcases hd with hd | hd
      · exact absurd hd hs
      · exact hd
    rw [h.toCoordinates hd' hc, h.indexOffset hc]
    exact ⟨_, rfl, rfl, c, hc, rfl, fun _ => rfl⟩

theorem next_spec {g : Geometry} (h : g.Inv) {i : Nat} {it : Iter} (ha : At g i it) (hi : i + 1 < g.size) :
    ∃ it', it.next g = some it' ∧ At g (i + 1) it' := by
  obtain ⟨h1, c, hc, hp, hco⟩ := ha
  obtain ⟨c', hc'⟩ := scan_some h hi
  unfold next
  rw [if_pos (by omega)]
  simp only
  by_cases hs : g.isSimple = true
  · rw [if_pos hs]
    refine ⟨_, rfl, by simp [h1], c', hc', ?_, by simp [hs]⟩
    simp only
    rw [simple_dot h hs hc', hp, simple_dot h hs hc]
  · rw [if_neg hs, if_pos (by omega)]
    have hco := hco (by simpa using hs)
    have hin := (scan_spec hc).1
    cases ho : g.order with
    | lastMajor =>
      rw [ho] at hc hc'
      have hod := odoNext_of_getElem? hc hc'
      have h2 := nextLoop_aux g g.shape c c' g.strides [] [] [] { it with index := it.index + 1 } rfl rfl rfl rfl
        (by simp [hco]) hin h.length hod (by simp [hp])
      rw [List.length_nil, ← List.range_eq_range', ← inShape_length hin, ← hco] at h2
      simp only
      rw [h2]
      refine ⟨_, rfl, by simp [h1], c', by rw [ho]; exact hc', ?_, by simp⟩
      simp only
      rw [hco]
      omega
    | firstMajor =>
      rw [ho] at hc hc'
      simp only [scan, allTuplesLast_eq, List.getElem?_map, Option.map_eq_some_iff] at hc hc'
      obtain ⟨d, hd, rfl⟩ := hc
      obtain ⟨d', hd', rfl⟩ := hc'
      have hod := odoNext_of_getElem? hd hd'
      have hind := (idx_of_getElem? hd).1
      have hne : it.coords ≠ [] := by
        intro hc
        have hd0 : d = [] := by rw [hco] at hc; simpa using hc
        subst hd0
        cases hsr : g.shape.reverse with
        | nil => rw [hsr] at hod; simp [odoNext] at hod
        | cons _ _ => rw [hsr] at hod; simp [odoNext] at hod
      have hdr := dot_reverse g.strides d.reverse (by rw [h.length, inShape_length hin])
      have hdr' := dot_reverse g.strides d'.reverse (by
        have := inShape_length (idx_of_getElem? hd').1
        rw [h.length]; simpa using this.symm)
      rw [List.reverse_reverse] at hdr hdr'
      have h2 := nextLoop_rev g g.shape.reverse d d' g.strides.reverse [] [] [] { it with index := it.index + 1 } (by simp) (by simp)
        (by simp [hco]) hind (by simp [h.length]) hod (by simp only; rw [hdr, hp])
      simp only [List.length_reverse, List.append_nil] at h2
      have hlc : it.coords.length = g.shape.length := by rw [hco, inShape_length hin]
      simp only
      rw [if_neg hne, hlc, h2]
      refine ⟨_, rfl, by simp [h1], d'.reverse, ?_, ?_, by simp⟩
      · rw [ho]
        simp only [scan, allTuplesLast_eq, List.getElem?_map, hd', Option.map_some]
      · simp only
        rw [hdr, hdr', hp]
        omega

theorem next_last {g : Geometry} (h : g.Inv) {i : Nat} {it : Iter} (ha : At g i it) (hi : i + 1 = g.size)
    (hd : g.isSimple = true ∨ g.shape ≠ []) : ∃ it', it.next g = some it' ∧ it'.index = g.size := by
  obtain ⟨h1, c, hc, hp, hco⟩ := ha
  unfold next
  rw [if_pos (by omega)]
  simp only
  by_cases hs : g.isSimple = true
  · rw [if_pos hs]
    exact ⟨_, rfl, by simp only; omega⟩
  · rw [if_neg hs, if_neg (by omega)]
    have hco := hco (by simpa using hs)
    have hd' : g.shape ≠ [] := by
      rcases hd with hd | hd
      · exact absurd hd hs
      · exact hd
    have hin := (scan_spec hc).1
    have hl : it.coords.length = g.shape.length := by rw [hco, inShape_length hin]
    have hpos : 0 < g.shape.length := List.length_pos_iff.mpr hd'
    have e : g.size - 1 = i := by omega
    rw [e, h.indexOffset hc]
    have hb : ∀ j, j < it.coords.length → ∃ cs, bump it.coords j = some cs := by
      intro j hj
      unfold bump
      rw [List.getElem?_eq_getElem hj]
      simp only
      exact ⟨_, setAt_of_lt _ hj⟩
    cases g.order with
    | lastMajor =>
      obtain ⟨cs, hcs⟩ := hb 0 (by omega)
      simp only [hcs, Option.map_some]
      exact ⟨_, rfl, by simp only; omega⟩
    | firstMajor =>
      obtain ⟨cs, hcs⟩ := hb (g.shape.length - 1) (by omega)
      simp only [hcs, if_neg hd', Option.map_some]
      exact ⟨_, rfl, by simp only; omega⟩

theorem At.deref {V : Type} {g : Geometry} {i : Nat} {it : Iter} (ha : At g i it) (mem : List V) (base : Nat)
    {c : List Nat} (hc : (scan g.order g.shape)[i]? = some c) : it.deref mem base = mem[(View.mk base g).addr c]? := by
  obtain ⟨_, c', hc', hp, _⟩ := ha
  rw [hc] at hc'
  injection hc' with hc'
  subst hc'
  rw [Iter.deref, hp]
  rfl

/-- Advance `k` times. -/
def steps (g : Geometry) : Nat → Iter → Option Iter
  | 0, it => some it
  | k + 1, it => (steps g k it).bind (fun it => it.next g)

theorem steps_spec {g : Geometry} (h : g.Inv) : ∀ (k i : Nat) (it : Iter), At g i it → i + k < g.size →
    ∃ it', steps g k it = some it' ∧ At g (i + k) it'
  | 0, _, it, ha, _ => ⟨it, rfl, ha⟩
  | k + 1, i, it, ha, hk => by
    obtain ⟨it', h1, h2⟩ := steps_spec h k i it ha (by omega)
    obtain ⟨it'', h3, h4⟩ := next_spec h h2 (by omega)
    refine ⟨it'', ?_, h4⟩
    rw [steps, h1, Option.bind_some, h3]

end Iter
end Marray
end OpenGM
