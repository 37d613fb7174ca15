import Verif.Lemmas.PartitionsTable
/-
C46: opengm::Partitions numbers the partitions of a set.
-/
namespace OpenGM.Partitions
open Spec

/-- Contents of the static vector after any history of `resize` and `label2Index` calls of any objects (also calls that threw). -/
inductive Reachable (w : Nat) : List Nat → Prop
  | init : Reachable w []
  | resize {parts parts' : List Nat} {N : Nat} : Reachable w parts → buildPartitions w N parts = .ok () parts' → Reachable w parts'
  | resizeThrow {parts parts' : List Nat} {N : Nat} : Reachable w parts → buildPartitions w N parts = .throw parts' → Reachable w parts'
  | label2Index {parts parts' : List Nat} {l : List Nat} {r : Option Nat} : Reachable w parts → label2Index w l parts = .ok r parts' → Reachable w parts'
  | label2IndexThrow {parts parts' : List Nat} {l : List Nat} : Reachable w parts → label2Index w l parts = .throw parts' → Reachable w parts'

theorem good_resize {w N : Nat} {parts parts' : List Nat} (hg : Good w parts)
    (h : buildPartitions w N parts = .ok () parts' ∨ buildPartitions w N parts = .throw parts') : Good w parts' := by
  cases hb : bell[N]? with
  | none => unfold buildPartitions at h; rw [hb] at h; simp at h
  | some b =>
    by_cases c : bits 0 N ≤ w
    · obtain ⟨p, M, b', h1, _, h2, h3, h4, h5⟩ := build_good hg hb c
      rw [h1] at h
      simp at h
      subst h
      exact Or.inr ⟨M, b', h2, h3, h4, h5⟩
    · rw [build_throw hg hb (by omega)] at h
      simp at h
      subst h
      exact hg

theorem reachable_good {w : Nat} {parts : List Nat} (h : Reachable w parts) : Good w parts := by
  induction h with
  | init => exact Or.inl rfl
  | resize _ h ih => exact good_resize ih (Or.inl h)
  | resizeThrow _ h ih => exact good_resize ih (Or.inr h)
  | label2Index _ h ih =>
    unfold label2Index at h
    split at h
    · simp at h
    · simp at h
    · next hb =>
      simp at h
      rw [← h.2]
      exact good_resize ih (Or.inl hb)
  | label2IndexThrow _ h ih =>
    unfold label2Index at h
    split at h
    · simp at h
    · next hb =>
      simp at h
      rw [← h]
      exact good_resize ih (Or.inr hb)
    · simp at h

/-- C46 (numbers): with enough bits, two labelings of the same elements have the same number iff they describe the same partition. -/
theorem C46_label2Number (w : Nat) (l l' : List Nat) (hlen : l.length = l'.length) (hw : l.length * (l.length - 1) / 2 ≤ w) :
    label2Number w l = label2Number w l' ↔ SamePartition l l' := by
  rw [← bits_zero] at hw
  rw [label2Number_eq hw, label2Number_eq (by rw [← hlen]; exact hw), code_eq_iff hlen]

example : SamePartition [7, 3, 7, 5] [0, 1, 0, 2] ∧ label2Number 64 [7, 3, 7, 5] = 2 := by
  refine ⟨?_, by decide⟩
  exact (C46_label2Number 64 [7, 3, 7, 5] [0, 1, 0, 2] rfl (by decide)).mp (by decide)

/-- C46: for at most 15 elements whose pairs fit into the number type there is one numbering of the partitions of the elements,
from 0 up to the Bell number, that `label2Index` computes after every history; `getPartition(n, l)` is its inverse on every
reachable table that has been resized for this number of elements. -/
theorem C46_partitions_partial (w ws N b : Nat) (hb : bell[N]? = some b) (hw : N * (N - 1) / 2 ≤ w) (hws : N * (N - 1) / 2 ≤ ws) (hpos : 0 < ws) :
    ∃ idx : List Nat → Nat,
      (∀ l l' : List Nat, l.length = N → l'.length = N → (idx l = idx l' ↔ SamePartition l l')) ∧
      (∀ l : List Nat, l.length = N → idx l < b) ∧
      (∀ n, n < b → ∃ l : List Nat, l.length = N ∧ idx l = n) ∧
      (∀ (parts l : List Nat), Reachable w parts → l.length = N → ∃ parts', label2Index w l parts = .ok (some (idx l)) parts') ∧
      (∀ (parts parts0 : List Nat) (n : Nat), 0 < N → Reachable w parts0 → buildPartitions w N parts0 = .ok () parts → n < b →
        ∃ l, getPartition ws n N parts = some l ∧ l.length = N ∧ idx l = n) := by
  rw [← bits_zero] at hw hws
  have hT := table_isTable N
  have hlen := table_length hb
  have hmem : ∀ l : List Nat, l.length = N → code [] l ∈ table N := fun l hl => (hT.2 _).mpr ⟨l, hl, rfl⟩
  have hidx : ∀ l : List Nat, ∃ i, l.length = N → number2Index (code [] l) (table N) = some i ∧ (table N)[i]? = some (code [] l) := by
    intro l
    by_cases c : l.length = N
    · obtain ⟨i, h⟩ := number2Index_spec (hmem l c)
      exact ⟨i, fun _ => h⟩
    · exact ⟨0, fun h => absurd h c⟩
  choose idx hidx using hidx
  have hnd : (table N).Nodup := hT.1.imp (fun h => Nat.ne_of_lt h)
  have huniq : ∀ (i j e : Nat), (table N)[i]? = some e → (table N)[j]? = some e → i = j := by
    intro i j e hi hj
    exact (hnd.getElem_inj_iff (hi := (List.getElem?_eq_some_iff.mp hi).1) (hj := (List.getElem?_eq_some_iff.mp hj).1)).mp
      ((List.getElem?_eq_some_iff.mp hi).2.trans (List.getElem?_eq_some_iff.mp hj).2.symm)
  have hinj : ∀ l l' : List Nat, l.length = N → l'.length = N → (idx l = idx l' ↔ SamePartition l l') := by
    intro l l' hl hl'
    rw [← code_eq_iff (by rw [hl, hl'])]
    constructor
    · intro h
      have h1 := (hidx l hl).2
      rw [h, (hidx l' hl').2] at h1
      exact (Option.some.inj h1).symm
    · intro h
      exact huniq _ _ _ (hidx l hl).2 (h ▸ (hidx l' hl').2)
  refine ⟨idx, hinj, ?_, ?_, ?_, ?_⟩
  · intro l hl
    have := (List.getElem?_eq_some_iff.mp (hidx l hl).2).1
    omega
  · intro n hn
    have hn' : n < (table N).length := by omega
    obtain ⟨l, h1, h2⟩ := (hT.2 _).mp (List.getElem_mem hn')
    refine ⟨l, h1, huniq _ _ _ (hidx l h1).2 ?_⟩
    rw [h2, List.getElem?_eq_getElem hn']
  · intro parts l hr hl
    obtain ⟨p, M, b', h1, h2, _, _, h5, _⟩ := build_good (reachable_good hr) hb hw
    refine ⟨p, ?_⟩
    unfold label2Index
    rw [hl, h1]
    simp only
    obtain ⟨R, hR⟩ := table_prefix h5 hT h2
    rw [label2Number_eq (by rw [hl]; exact hw), hR, number2Index_append R (hmem l hl), (hidx l hl).1]
  · intro parts parts0 n hN hr hbuild hn
    obtain ⟨p, M, b', h1, h2, _, _, h5, _⟩ := build_good (reachable_good hr) hb hw
    rw [hbuild] at h1
    have hp : parts = p := by injection h1
    subst hp
    obtain ⟨R, hR⟩ := table_prefix h5 hT h2
    have hn' : n < (table N).length := by omega
    obtain ⟨l, h3, h4⟩ := (hT.2 _).mp (List.getElem_mem hn')
    have hget : parts[n]? = some (code [] l) := by
      rw [hR, List.getElem?_append_left hn', List.getElem?_eq_getElem hn', h4]
    obtain ⟨out, h6, h7⟩ := decode_eq (ws := ws) (l := l) (by rintro rfl; simp at h3; omega) (by rw [h3]; exact hws) hpos
    rw [h3] at h6
    refine ⟨out, ?_, by rw [h7.1, h3], ?_⟩
    · unfold getPartition
      rw [hget]
      simp only
      rw [if_neg (by omega), h6]
    · rw [(hinj out l (by rw [h7.1, h3]) h3).mpr h7]
      refine huniq _ _ _ (hidx l h3).2 ?_
      rw [h4, List.getElem?_eq_getElem hn']

/-- The hypotheses hold for `Partitions<size_t, size_t>` and up to eleven elements. -/
example : bell[11]? = some 678570 ∧ 11 * (11 - 1) / 2 ≤ 64 := by decide

example : enumerate 64 27 [0, 0, 0] [7] = some [7, 4, 2, 1, 0] ∧ number2Index (label2Number 64 [4, 4, 9]) [0, 1, 2, 4, 7] = some 1 ∧
    getPartition 64 3 3 [0, 1, 2, 4, 7] = some [0, 1, 1] := by decide

/-- C46 (errors): with too few bits `resize` and `label2Index` throw and leave the table as it is, after every history. -/
theorem C46_throw (w N b : Nat) (hb : bell[N]? = some b) (hw : w < N * (N - 1) / 2) (parts : List Nat) (hr : Reachable w parts) :
    buildPartitions w N parts = .throw parts ∧ ∀ l : List Nat, l.length = N → label2Index w l parts = .throw parts := by
  rw [← bits_zero] at hw
  have h := build_throw (reachable_good hr) hb hw
  refine ⟨h, ?_⟩
  intro l hl
  unfold label2Index
  rw [hl, h]

example : bell[12]? = some 4213597 ∧ 64 < 12 * (12 - 1) / 2 ∧ Reachable 64 [] := ⟨by decide, by decide, Reachable.init⟩

/-- C46 is violated for 16 and more elements: the table of Bell numbers is read out of range, instead of the error for too few bits. -/
theorem C46_violated_large (w N : Nat) (hN : 16 ≤ N) (parts : List Nat) : buildPartitions w N parts = .ub := by
  unfold buildPartitions
  have : bell[N]? = none := by
    rw [List.getElem?_eq_none_iff]
    simpa [bell] using hN
  rw [this]

/-- C46 is violated for `getPartition(n, l)` with an empty `l`: `l[0]` is written. -/
theorem C46_violated_empty (ws n : Nat) (parts : List Nat) : getPartition ws n 0 parts = none := by
  unfold getPartition
  split <;> simp

end OpenGM.Partitions
