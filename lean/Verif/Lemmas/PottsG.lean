import Verif.Props.Partitions
import Verif.Model.FunctionStorage
import Verif.Spec.FunctionTables
/-
Lemmas about PottsGFunction: the numbering of the partitions in the switch and in the tables.
-/
namespace OpenGM.Functions.PottsG
open Spec Partitions

/-- Position of the partition of `l` among all partitions of its length. -/
def idx (l : List Nat) : Nat := (table l.length).idxOf (code [] l)

theorem bits_le {N : Nat} (h : N ≤ 11) : bits 0 N ≤ width := (bits_mono h).trans (by decide)

theorem code_mem (l : List Nat) : code [] l ∈ table l.length := ((table_isTable _).2 _).mpr ⟨l, rfl, rfl⟩

theorem table_idx (l : List Nat) : (table l.length)[idx l]? = some (code [] l) := by
  have h := code_mem l
  unfold idx
  rw [List.getElem?_eq_getElem (List.idxOf_lt_length_iff.mpr h), List.getElem_idxOf]

theorem number2Index_idxOf {e : Nat} : ∀ {T : List Nat}, e ∈ T → number2Index e T = some (T.idxOf e)
  | [], h => by simp at h
  | a :: T, h => by
    rw [number2Index, List.idxOf_cons]
    by_cases c : a = e
    · simp [c]
    · have : e ∈ T := by
        rcases List.mem_cons.mp h with h | h
        · exact absurd h.symm c
        · exact h
      have c' : (a == e) = false := by simpa using c
      simp [c, c', number2Index_idxOf this]

theorem number2Index_idx (l : List Nat) : number2Index (code [] l) (table l.length) = some (idx l) := number2Index_idxOf (code_mem l)

theorem idx_lt {l : List Nat} {b : Nat} (hb : bell[l.length]? = some b) : idx l < b := by
  rw [← table_length hb]
  exact List.idxOf_lt_length_iff.mpr (code_mem l)

theorem idx_lt_iff {l l' : List Nat} (h : l.length = l'.length) : idx l < idx l' ↔ code [] l < code [] l' := by
  have hs := (table_isTable l.length).1
  have h1 := table_idx l
  have h2 := table_idx l'
  rw [← h] at h2
  have i1 := (List.getElem?_eq_some_iff.mp h1)
  have i2 := (List.getElem?_eq_some_iff.mp h2)
  obtain ⟨i1, e1⟩ := i1
  obtain ⟨i2, e2⟩ := i2
  have hp := List.pairwise_iff_getElem.mp hs
  constructor
  · intro hlt
    have := hp _ _ i1 i2 hlt
    omega
  · intro hlt
    by_contra hc
    rcases Nat.lt_or_ge (idx l') (idx l) with h3 | h3
    · have := hp _ _ i2 i1 h3
      omega
    · have h4 : idx l = idx l' := by omega
      rw [h4] at h1
      rw [h1] at h2
      injection h2 with h2
      omega

theorem idx_eq_iff {l l' : List Nat} (h : l.length = l'.length) : idx l = idx l' ↔ SamePartition l l' := by
  rw [← code_eq_iff h]
  have h1 := idx_lt_iff h
  have h2 := idx_lt_iff h.symm
  omega

theorem idx_surj {N b : Nat} (hb : bell[N]? = some b) {n : Nat} (hn : n < b) : ∃ l : List Nat, l.length = N ∧ idx l = n := by
  have hT := table_isTable N
  have hn' : n < (table N).length := by rw [table_length hb]; exact hn
  obtain ⟨l, h1, h2⟩ := (hT.2 _).mp (List.getElem_mem hn')
  refine ⟨l, h1, ?_⟩
  have h3 := table_idx l
  rw [h1] at h3
  have hnd : (table N).Nodup := hT.1.imp (fun h => Nat.ne_of_lt h)
  obtain ⟨h4, h5⟩ := List.getElem?_eq_some_iff.mp h3
  exact (hnd.getElem_inj_iff (hi := h4) (hj := hn')).mp (h5.trans h2)

/-- Every partition is described by labels smaller than the number of elements. -/
theorem small_labels (l : List Nat) : ∃ l' : List Nat, SamePartition l l' ∧ ∀ x ∈ l', x < l.length := by
  refine ⟨l.map (fun x => l.idxOf x), ⟨by simp, ?_⟩, ?_⟩
  · intro i j hi hj
    rw [List.getElem?_map, List.getElem?_map, List.getElem?_eq_getElem hi, List.getElem?_eq_getElem hj]
    simp only [Option.map_some, Option.some.injEq]
    constructor
    · intro h; rw [h]
    · intro h
      exact (List.idxOf_inj (List.getElem_mem hi)).mp h
  · intro x hx
    obtain ⟨y, hy, rfl⟩ := List.mem_map.mp hx
    exact List.idxOf_lt_length_iff.mpr hy

/-! ### the switch -/

/-- The case labels of the switch. -/
def switchTable : List Nat := [0, 1, 2, 4, 7, 8, 12, 16, 18, 25, 32, 33, 42, 52, 63]

theorem table_four : table 4 = switchTable := by
  refine isTable_unique (table_isTable 4) ⟨by decide, ?_⟩
  intro e
  rw [← (table_isTable 4).2]
  unfold table
  rw [List.mem_mergeSort]
  have hp : ((gen 4).map (label2Number (bits 0 4))).Perm switchTable := by decide
  exact (hp.mem_iff).symm

theorem place_eq {e : Nat} (h : e ∈ switchTable) : place e = number2Index e switchTable := by
  have : ∀ e ∈ switchTable, place e = number2Index e switchTable := by decide
  exact this e h

theorem place_idx {l : List Nat} (h : l.length ≤ 4) : place (label2Number width l) = some (idx l) := by
  rw [label2Number_eq (bits_le (by omega))]
  obtain ⟨R, hR⟩ := table_prefix (table_isTable 4) (table_isTable l.length) h
  have hm : code [] l ∈ switchTable := by
    rw [← table_four, hR]
    exact List.mem_append_left _ (code_mem l)
  rw [place_eq hm, ← table_four, hR, number2Index_append R (code_mem l), number2Index_idx]

/-! ### the tables -/

/-- The static table is long enough for `N` elements. -/
def Covers (N : Nat) (parts : List Nat) : Prop := ∃ M T, N ≤ M ∧ IsTable M T ∧ parts = T

theorem number2Index_covers {l parts : List Nat} (h : Covers l.length parts) : number2Index (code [] l) parts = some (idx l) := by
  obtain ⟨M, T, h1, h2, rfl⟩ := h
  obtain ⟨R, hR⟩ := table_prefix h2 (table_isTable l.length) h1
  rw [hR, number2Index_append R (code_mem l), number2Index_idx]

theorem bell_some {N : Nat} (h : N ≤ 11) : ∃ b, bell[N]? = some b := ⟨_, List.getElem?_eq_getElem (by simp [bell]; omega)⟩

theorem build_covers {N : Nat} {parts : List Nat} (hN : N ≤ 11) (hr : Reachable width parts) :
    ∃ parts', buildPartitions width N parts = .ok () parts' ∧ Covers N parts' ∧ Reachable width parts' := by
  obtain ⟨b, hb⟩ := bell_some hN
  obtain ⟨p, M, b', h1, h2, h3, h4, h5, h6⟩ := build_good (reachable_good hr) hb (bits_le hN)
  exact ⟨p, h1, ⟨M, p, h2, h5, rfl⟩, .resize hr h1⟩

theorem label2Index_idx {l parts : List Nat} (hN : l.length ≤ 11) (hr : Reachable width parts) :
    ∃ parts', label2Index width l parts = .ok (some (idx l)) parts' ∧ Covers l.length parts' ∧ Reachable width parts' := by
  obtain ⟨p, h1, h2, h3⟩ := build_covers hN hr
  have : label2Index width l parts = .ok (some (idx l)) p := by
    unfold label2Index
    rw [h1]
    simp only
    rw [label2Number_eq (bits_le hN), number2Index_covers h2]
  exact ⟨p, this, h2, .label2Index hr this⟩

theorem bell_mono : ∀ i j : Fin 16, 2 ≤ i.1 → bell[i.1]?.getD 0 ≤ bell[j.1]?.getD 0 → i ≤ j := by decide

theorem bell_le {N M b b' : Nat} (hN : 2 ≤ N) (hb : bell[N]? = some b) (hb' : bell[M]? = some b') (h : b ≤ b') : N ≤ M := by
  have hn : N < 16 := by simpa [bell] using (List.getElem?_eq_some_iff.mp hb).1
  have hm : M < 16 := by simpa [bell] using (List.getElem?_eq_some_iff.mp hb').1
  have := bell_mono ⟨N, hn⟩ ⟨M, hm⟩ hN (by simpa [hb, hb'] using h)
  exact this

theorem table_of_isTable {M : Nat} {T : List Nat} (h : IsTable M T) : T = table M := isTable_unique h (table_isTable M)

/-- Tables only grow. -/
theorem covers_build {N N' : Nat} {parts parts' : List Nat} (hN : 2 ≤ N) (hc : Covers N parts) (hr : Reachable width parts)
    (h : buildPartitions width N' parts = .ok () parts' ∨ buildPartitions width N' parts = .throw parts') : Covers N parts' := by
  cases hb : bell[N']? with
  | none => unfold buildPartitions at h; rw [hb] at h; simp at h
  | some b =>
    by_cases c : bits 0 N' ≤ width
    · by_cases c2 : parts.length ≥ b
      · have : parts' = parts := by
          unfold buildPartitions at h
          rw [hb] at h
          simp only at h
          rw [if_pos c2] at h
          simp at h
          exact h.symm
        rw [this]; exact hc
      · obtain ⟨p, M', b', h1, h2, h3, h4, h5, h6⟩ := build_good (reachable_good hr) hb c
        have hpp : parts' = p := by
          rw [h1] at h
          simp at h
          exact h.symm
        subst hpp
        obtain ⟨M, T, g1, g2, rfl⟩ := hc
        rcases reachable_good hr with h0 | ⟨M0, b0, k1, k2, k3, k4⟩
        · rw [h0] at g2
          have := (g2.2 (code [] (List.replicate M 0))).mpr ⟨_, by simp, rfl⟩
          simp at this
        · refine ⟨M', parts', ?_, h5, rfl⟩
          have hNb : N ≤ M0 := by
            have hM16 : M0 < 16 := by simpa [bell] using (List.getElem?_eq_some_iff.mp k1).1
            by_contra hlt
            have hN16 : ∃ bN, bell[M0 + 1]? = some bN := by
              by_contra hno
              have : M0 = 15 := by
                have : ¬ M0 + 1 < 16 := fun h => hno ⟨_, List.getElem?_eq_getElem (by simpa [bell] using h)⟩
                omega
              subst this
              have : bits 0 15 ≤ 64 := k2
              exact absurd this (by decide)
            obtain ⟨bN, hbN⟩ := hN16
            have hlen : (table (M0 + 1)).length = bN := table_length hbN
            obtain ⟨R, hR⟩ := table_prefix g2 (table_isTable (M0 + 1)) (by omega)
            have hle : bN ≤ b0 := by
              rw [← k4, hR, List.length_append, hlen]; omega
            by_cases hM0 : 1 ≤ M0
            · have := bell_le (by omega) hbN k1 hle
              omega
            · have hM00 : M0 = 0 := by omega
              obtain ⟨R2, hR2⟩ := table_prefix g2 (table_isTable 2) (by omega)
              have h22 : (table 2).length = 2 := table_length (by decide)
              have : b0 = 1 := by
                subst hM00
                simp [bell] at k1
                exact k1.symm
              have h7 : parts.length = (table 2).length + R2.length := by rw [hR2]; simp
              omega
          have hM' : N' ≤ M' := h2
          have : M0 ≤ M' := by
            by_cases hM2 : 2 ≤ M0
            · refine bell_le hM2 k1 h3 ?_
              have hbb : b ≤ b' := by
                obtain ⟨R, hR⟩ := table_prefix h5 (table_isTable N') h2
                have : (table N').length = b := table_length hb
                rw [← h6, hR, List.length_append, this]; omega
              omega
            · omega
          omega
    · have : buildPartitions width N' parts = .throw parts := build_throw (reachable_good hr) hb (by omega)
      rw [this] at h
      simp at h
      rw [← h]; exact hc

/-! ### the partition into one class -/

theorem flags_replicate (x : Nat) : ∀ n, flags x (List.replicate n x) = 2 ^ n - 1
  | 0 => rfl
  | n + 1 => by
    have h : 0 < 2 ^ n := Nat.two_pow_pos n
    rw [List.replicate_succ, flags, flags_replicate x n, pow_succ]
    simp only [if_true]
    omega

theorem code_replicate (x : Nat) : ∀ k n, code (List.replicate n x) (List.replicate k x) = 2 ^ bits n k - 1
  | 0, n => by simp [code, bits]
  | k + 1, n => by
    rw [List.replicate_succ, code, flags_replicate, List.length_replicate]
    have h1 : List.replicate n x ++ [x] = List.replicate (n + 1) x := by rw [List.replicate_succ']
    rw [h1, code_replicate x k (n + 1), bits, pow_add]
    have h2 : 0 < 2 ^ n := Nat.two_pow_pos n
    have h3 : 0 < 2 ^ bits (n + 1) k := Nat.two_pow_pos _
    rw [Nat.mul_sub_one]
    have h4 : 2 ^ n ≤ 2 ^ n * 2 ^ bits (n + 1) k := Nat.le_mul_of_pos_right _ h3
    omega

theorem allEqual_iff {c : List Nat} : AllEqual c ↔ SamePartition c (List.replicate c.length 0) := by
  unfold AllEqual SamePartition
  constructor
  · intro h
    refine ⟨by simp, ?_⟩
    intro i j hi hj
    simp only [List.getElem?_replicate, hi, hj, if_true, iff_true]
    exact h i j hi hj
  · rintro ⟨_, h⟩ i j hi hj
    rw [h i j hi hj]
    simp [List.getElem?_replicate, hi, hj]

/-- The partition into one class comes last. -/
theorem allEqual_idx {c : List Nat} {b : Nat} (hb : bell[c.length]? = some b) : AllEqual c ↔ idx c = b - 1 := by
  have hlast : idx (List.replicate c.length 0) = b - 1 := by
    have h0 : idx (List.replicate c.length 0) < b := idx_lt (by simpa using hb)
    obtain ⟨l, h1, h2⟩ := idx_surj hb (n := b - 1) (by omega)
    have h3 : ¬ idx (List.replicate c.length 0) < idx l := by
      rw [idx_lt_iff (by simp [h1])]
      have h4 := code_lt l []
      have h5 := code_replicate 0 c.length 0
      simp only [List.replicate_zero] at h5
      simp only [List.length_nil, h1] at h4
      omega
    omega
  rw [allEqual_iff, ← idx_eq_iff (by simp), hlast]

end OpenGM.Functions.PottsG
