import Verif.Lemmas.MarrayIter
/-
Decrement of iterators.
-/
namespace OpenGM
open Spec Walkers
namespace Marray
open Geometry
namespace Iter

theorem prevLoop_aux (g : Geometry) : ∀ (s t t' st preN preS pre : List Nat) (it : Iter),
    preN.length = pre.length → preS.length = pre.length → g.shape = preN ++ s → g.strides = preS ++ st → it.coords = pre ++ t' →
    InShape s t → st.length = s.length → odoNext s t = some t' → dot st t' ≤ it.pointer →
    prevLoop g (List.range' pre.length s.length) it = some ⟨it.index, it.pointer - dot st t' + dot st t, pre ++ t⟩
  | [], t, t', _, _, _, _, _, _, _, _, _, _, _, _, h, _ => by simp [odoNext] at h
  | _ :: _, [], _, _, _, _, _, _, _, _, _, _, _, hs, _, _, _ => by simp [InShape] at hs
  | _ :: _, _ :: _, _, [], _, _, _, _, _, _, _, _, _, _, h, _, _ => by simp at h
  | n :: s, x :: t, t', u :: st, preN, preS, pre, it, hpN, hpS, hN, hS, hC, hs, hl, ho, hp => by
    rw [List.length_cons, List.range'_succ, prevLoop]
    have hx : x < n := hs.1
    simp only [odoNext] at ho
    by_cases hc : x + 1 < n
    · rw [if_pos hc] at ho
      injection ho with ho
      subst ho
      rw [hC, hN, hS, getElem?_mid _ _ _ rfl, getElem?_mid _ _ _ hpN.symm, getElem?_mid _ _ _ hpS.symm]
      simp only
      simp only [dot, Nat.add_mul, Nat.one_mul] at hp ⊢
      rw [if_neg (by omega), if_pos (by omega), setAt_append, Option.map_some]
      simp only [Nat.add_sub_cancel]
      congr 2
      omega
    · rw [if_neg hc] at ho
      simp only [Option.map_eq_some_iff] at ho
      obtain ⟨t'', ho, rfl⟩ := ho
      rw [hC, hN, hS, getElem?_mid _ _ _ rfl, getElem?_mid _ _ _ hpN.symm, getElem?_mid _ _ _ hpS.symm]
      simp only [dot, Nat.zero_mul, Nat.zero_add] at hp
      simp only
      rw [if_pos trivial, setAt_append, Option.bind_some]
      have ih := prevLoop_aux g s t t'' st (preN ++ [n]) (preS ++ [u]) (pre ++ [n - 1])
        { it with pointer := it.pointer + u * (n - 1), coords := pre ++ (n - 1) :: t'' } (by simp [hpN]) (by simp [hpS]) (by simp [hN])
        (by simp [hS]) (by simp) hs.2 (by simpa using hl) ho (by simp only; omega)
      rw [List.length_append, List.length_singleton] at ih
      rw [ih]
      have hxn : n - 1 = x := by omega
      simp only [dot, List.append_assoc, List.singleton_append, hxn, Nat.zero_mul, Nat.zero_add]
      congr 2
      rw [Nat.mul_comm u x]
      omega

theorem prevLoop_rev (g : Geometry) : ∀ (s t t' st postN postS post : List Nat) (it : Iter),
    g.shape = s.reverse ++ postN → g.strides = st.reverse ++ postS → it.coords = t'.reverse ++ post →
    InShape s t → t'.length = s.length → st.length = s.length → odoNext s t = some t' → dot st t' ≤ it.pointer →
    prevLoop g (List.range s.length).reverse it = some ⟨it.index, it.pointer - dot st t' + dot st t, t.reverse ++ post⟩
  | [], t, t', _, _, _, _, _, _, _, _, _, _, _, h, _ => by simp [odoNext] at h
  | _ :: _, [], _, _, _, _, _, _, _, _, _, hs, _, _, _, _ => by simp [InShape] at hs
  | _ :: _, _ :: _, _, [], _, _, _, _, _, _, _, _, _, h, _, _ => by simp at h
  | n :: s, x :: t, t', u :: st, postN, postS, post, it, hN, hS, hC, hs, hlt', hl, ho, hp => by
    rw [List.length_cons, List.range_succ, List.reverse_append, List.reverse_singleton, List.singleton_append, prevLoop]
    have hl' : st.length = s.length := by simpa using hl
    have hlt := inShape_length hs.2
    simp only [List.reverse_cons, List.append_assoc, List.singleton_append] at hN hS
    have hx : x < n := hs.1
    simp only [odoNext] at ho
    have hset : ∀ (r : List Nat) (z y : Nat), r.length = s.length →
        setAt (r.reverse ++ z :: post) s.length y = some (r.reverse ++ y :: post) := by
      intro r z y hr
      have := setAt_append r.reverse post z y
      rwa [List.length_reverse, hr] at this
    by_cases hc : x + 1 < n
    · rw [if_pos hc] at ho
      injection ho with ho
      subst ho
      simp only [List.reverse_cons, List.append_assoc, List.singleton_append] at hC
      rw [hC, hN, hS, getElem?_mid _ _ _ (by simp [hlt]), getElem?_mid _ _ _ (by simp), getElem?_mid _ _ _ (by simp [hl'])]
      simp only
      simp only [dot, Nat.add_mul, Nat.one_mul] at hp ⊢
      rw [if_neg (by omega), if_pos (by omega), hset _ _ _ hlt, Option.map_some]
      simp only [Nat.add_sub_cancel, List.reverse_cons, List.append_assoc, List.singleton_append]
      congr 2
      omega
    · rw [if_neg hc] at ho
      simp only [Option.map_eq_some_iff] at ho
      obtain ⟨t'', ho, rfl⟩ := ho
      have hlt'' : t''.length = s.length := by simpa using hlt'
      simp only [List.reverse_cons, List.append_assoc, List.singleton_append] at hC
      rw [hC, hN, hS, getElem?_mid _ _ _ (by simp [hlt'']), getElem?_mid _ _ _ (by simp), getElem?_mid _ _ _ (by simp [hl'])]
      simp only [dot, Nat.zero_mul, Nat.zero_add] at hp
      simp only
      rw [if_pos trivial, hset _ _ _ hlt'', Option.bind_some]
      have ih := prevLoop_rev g s t t'' st (n :: postN) (u :: postS) ((n - 1) :: post)
        { it with pointer := it.pointer + u * (n - 1), coords := t''.reverse ++ (n - 1) :: post } hN hS rfl
        hs.2 hlt'' hl' ho (by simp only; omega)
      rw [ih]
      have hxn : n - 1 = x := by omega
      simp only [dot, List.reverse_cons, List.append_assoc, List.singleton_append, hxn, Nat.zero_mul, Nat.zero_add]
      congr 2
      rw [Nat.mul_comm u x]
      omega

/-- Going back from an element that is not the end. -/
theorem prev_spec {g : Geometry} (h : g.Inv) {i : Nat} {it : Iter} (ha : At g (i + 1) it) :
    ∃ it', it.prev g = some it' ∧ At g i it' := by
  obtain ⟨h1, c', hc', hp, hco⟩ := ha
  have hi : i + 1 < g.size := by
    by_contra hx
    rw [List.getElem?_eq_none (by rw [length_scan, ← h.size]; omega)] at hc'
    simp at hc'
  obtain ⟨c, hc⟩ := scan_some h (i := i) (by omega)
  unfold prev
  rw [if_neg (by omega)]
  simp only
  by_cases hs : g.isSimple = true
  · rw [if_pos hs]
    rw [simple_dot h hs hc'] at hp
    rw [if_neg (by omega)]
    refine ⟨_, rfl, by simp [h1], c, hc, ?_, by simp [hs]⟩
    simp only
    rw [simple_dot h hs hc]
    omega
  · rw [if_neg hs, if_neg (by omega)]
    have hco := hco (by simpa using hs)
    have hin := (scan_spec hc).1
    have hin' := (scan_spec hc').1
    have hlc : it.coords.length = g.shape.length := by rw [hco, inShape_length hin']
    cases ho : g.order with
    | lastMajor =>
      rw [ho] at hc hc'
      have hod := odoNext_of_getElem? hc hc'
      have h2 := prevLoop_aux g g.shape c c' g.strides [] [] [] { it with index := it.index - 1 } rfl rfl rfl rfl
        (by simp [hco]) hin h.length hod (by simp [hp])
      rw [List.length_nil, ← List.range_eq_range', ← hlc] at h2
      simp only
      rw [h2]
      refine ⟨_, rfl, by simp [h1], c, by rw [ho]; exact hc, ?_, by simp⟩
      simp only
      omega
    | firstMajor =>
      rw [ho] at hc hc'
      simp only [scan, allTuplesLast_eq, List.getElem?_map, Option.map_eq_some_iff] at hc hc'
      obtain ⟨d, hd, rfl⟩ := hc
      obtain ⟨d', hd', rfl⟩ := hc'
      have hod := odoNext_of_getElem? hd hd'
      have hind := (idx_of_getElem? hd).1
      have hind' := (idx_of_getElem? hd').1
      have hne : g.shape ≠ [] := by
        intro hc
        rw [hc] at hod
        simp [odoNext] at hod
      have hdr := dot_reverse g.strides d.reverse (by rw [h.length, inShape_length hin])
      have hdr' := dot_reverse g.strides d'.reverse (by rw [h.length, inShape_length hin'])
      rw [List.reverse_reverse] at hdr hdr'
      have h2 := prevLoop_rev g g.shape.reverse d d' g.strides.reverse [] [] [] { it with index := it.index - 1 } (by simp) (by simp)
        (by simp [hco]) hind (inShape_length hind') (by simp [h.length]) hod (by simp only; rw [hdr', hp])
      simp only [List.length_reverse, List.append_nil] at h2
      simp only
      rw [if_neg hne, h2]
      refine ⟨_, rfl, by simp [h1], d.reverse, ?_, ?_, by simp⟩
      · rw [ho]
        simp only [scan, allTuplesLast_eq, List.getElem?_map, hd, Option.map_some]
      · simp only
        rw [hdr, hdr', hp]
        omega

end Iter
end Marray
end OpenGM
