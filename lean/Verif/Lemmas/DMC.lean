import Verif.Model.DMC
import Verif.Spec.Multicut
import Verif.Lemmas.PartitionMoveBuild
import Verif.Lemmas.DPInfer
import Verif.Lemmas.DPOrder
import Verif.Props.Partition
import Mathlib.Tactic.Linarith
/-
DMC: lemmas.
-/
namespace OpenGM
namespace DMC
open Spec Spec.Multicut
open PartitionMove (ne)

/-- The factors of a model as edges. -/
structure Data (gm : GM ℚ) (n m : Nat) (u v : Nat → Nat) (w : Nat → ℚ) : Prop where
  nvars : gm.numberOfVariables = n
  nfac : gm.factors.length = m
  fac : ∀ j, j < m → ∃ f, gm.factors[j]? = some f ∧ f.visSize = 2 ∧ gm.visAt f 0 = some (u j) ∧ gm.visAt f 1 = some (v j) ∧ weight gm f = some (w j)
  range : ∀ j, j < m → u j < n ∧ v j < n
  adj : ∀ a, a < n → ∃ l, gm.adj[a]? = some l ∧ ∀ j, j ∈ l ↔ j < m ∧ (u j = a ∨ v j = a)

variable {gm : GM ℚ} {n m : Nat} {u v : Nat → Nat} {w : Nat → ℚ}

/-- The cut weight of some of the factors. -/
def S (u v : Nat → Nat) (w : Nat → ℚ) (l : List Nat) (x : Nat → Nat) : ℚ := (l.map (fun j => w j * ne (x (u j)) (x (v j)))).sum

/-- The factors whose variables are all in a set. -/
def inner (m : Nat) (u v : Nat → Nat) (vs : List Nat) : List Nat := (List.range m).filter (fun j => decide (u j ∈ vs ∧ v j ∈ vs))

theorem mem_inner {vs : List Nat} {j : Nat} : j ∈ inner m u v vs ↔ j < m ∧ u j ∈ vs ∧ v j ∈ vs := by simp [inner]

theorem S_congr {l : List Nat} {x y : Nat → Nat} (h : ∀ j ∈ l, (x (u j) = x (v j) ↔ y (u j) = y (v j))) : S u v w l x = S u v w l y := by
  unfold S
  congr 1
  apply List.map_congr_left
  intro j hj
  congr 1
  unfold PartitionMove.ne
  simp only [h j hj]

theorem split (comp : Nat → Nat) (K : Nat) (x : Nat → Nat) : ∀ (l : List Nat), (∀ j ∈ l, comp (u j) < K) →
    S u v w l x = S u v w (l.filter (fun j => decide (comp (u j) ≠ comp (v j)))) x +
      ∑ k ∈ Finset.range K, S u v w (l.filter (fun j => decide (comp (u j) = k ∧ comp (v j) = k))) x
  | [], _ => by simp [S]
  | j :: l, h => by
    have ih := split comp K x l (fun i hi => h i (by simp [hi]))
    have hcons : ∀ q : Nat → Bool, S u v w ((j :: l).filter q) x = (if q j then w j * ne (x (u j)) (x (v j)) else 0) + S u v w (l.filter q) x := by
      intro q
      by_cases hq : q j = true
      · rw [List.filter_cons_of_pos hq, if_pos hq]; simp [S]
      · rw [List.filter_cons_of_neg hq, if_neg hq]; simp
    simp only [hcons, Finset.sum_add_distrib]
    have e1 : S u v w (j :: l) x = w j * ne (x (u j)) (x (v j)) + S u v w l x := by simp [S]
    rw [e1, ih]
    by_cases hc : comp (u j) = comp (v j)
    · have : ∑ k ∈ Finset.range K, (if decide (comp (u j) = k ∧ comp (v j) = k) = true then w j * ne (x (u j)) (x (v j)) else 0) = w j * ne (x (u j)) (x (v j)) := by
        rw [Finset.sum_eq_single (comp (u j))]
        · simp [← hc]
        · intro k _ hk
          have : ¬ (comp (u j) = k) := fun h => hk h.symm
          simp [this]
        · intro hk
          exact absurd (Finset.mem_range.mpr (h j (by simp))) hk
      rw [this]
      simp [hc]
      ring
    · have : ∑ k ∈ Finset.range K, (if decide (comp (u j) = k ∧ comp (v j) = k) = true then w j * ne (x (u j)) (x (v j)) else 0) = 0 := by
        apply Finset.sum_eq_zero
        intro k _
        have : ¬ (comp (u j) = k ∧ comp (v j) = k) := by rintro ⟨h1, h2⟩; exact hc (h1.trans h2.symm)
        simp [this]
      rw [this]
      simp [hc]
      ring

/-- Labels that cut all edges between components and are optimal within them are optimal, if the edges between components do not cost anything. -/
theorem optimal_of_components (comp : Nat → Nat) (K : Nat) {x : Nat → Nat} (l : List Nat) (hK : ∀ j ∈ l, comp (u j) < K)
    (hcross : ∀ j ∈ l, comp (u j) ≠ comp (v j) → w j ≤ 0 ∧ x (u j) ≠ x (v j))
    (hin : ∀ k, k < K → ∀ y : Nat → Nat, S u v w (l.filter (fun j => decide (comp (u j) = k ∧ comp (v j) = k))) x ≤ S u v w (l.filter (fun j => decide (comp (u j) = k ∧ comp (v j) = k))) y)
    (y : Nat → Nat) : S u v w l x ≤ S u v w l y := by
  rw [split comp K x l hK, split comp K y l hK]
  apply add_le_add
  · unfold S
    apply List.sum_le_sum
    intro j hj
    rw [List.mem_filter] at hj
    obtain ⟨h1, h2⟩ := hcross j hj.1 (by simpa using hj.2)
    unfold PartitionMove.ne
    rw [if_neg h2]
    split <;> linarith
  · exact Finset.sum_le_sum (fun k hk => hin k (Finset.mem_range.mp hk) y)

/-! ### one subproblem -/

theorem takeFactors_spec : ∀ (l : List Nat) (used : List Bool) (out : List Nat), (∀ f ∈ l, f < used.length) → out.Nodup → (∀ f ∈ out, used[f]? = some true) →
    ∃ used' fs, takeFactors used l out = some (used', fs) ∧ used'.length = used.length ∧ fs.Nodup ∧ (∀ f, f ∈ fs ↔ f ∈ out ∨ (f ∈ l ∧ used[f]? = some false)) ∧
      ∀ f, ¬ (f ∈ l ∧ used[f]? = some false) → used'[f]? = used[f]?
  | [], used, out, _, h2, _ => ⟨used, out, rfl, rfl, h2, by simp, by simp⟩
  | f :: l, used, out, h1, h2, h3 => by
    have hf := h1 f (by simp)
    rw [takeFactors, List.getElem?_eq_getElem hf]
    cases hu : used[f] with
    | true =>
      simp only
      obtain ⟨used', fs, e1, e2, e3, e4, e5⟩ := takeFactors_spec l used out (fun g hg => h1 g (by simp [hg])) h2 h3
      have hft : used[f]? = some true := by rw [List.getElem?_eq_getElem hf, hu]
      refine ⟨used', fs, e1, e2, e3, ?_, ?_⟩
      · intro g
        rw [e4 g]
        constructor
        · rintro (h | ⟨h, h'⟩)
          · exact Or.inl h
          · exact Or.inr ⟨by simp [h], h'⟩
        · rintro (h | ⟨h, h'⟩)
          · exact Or.inl h
          · rcases List.mem_cons.mp h with rfl | h
            · rw [hft] at h'; simp at h'
            · exact Or.inr ⟨h, h'⟩
      · intro g hg
        apply e5
        rintro ⟨a, b⟩
        exact hg ⟨by simp [a], b⟩
    | false =>
      simp only
      have hff : used[f]? = some false := by rw [List.getElem?_eq_getElem hf, hu]
      have hset : ∀ g, (used.set f true)[g]? = if g = f then some true else used[g]? := by
        intro g
        rw [List.getElem?_set]
        by_cases hgf : f = g
        · subst hgf; simp [hf]
        · rw [if_neg hgf, if_neg (fun h => hgf h.symm)]
      have hnf : f ∉ out := by
        intro h
        have := h3 f h
        rw [hff] at this; simp at this
      obtain ⟨used', fs, e1, e2, e3, e4, e5⟩ := takeFactors_spec l (used.set f true) (out ++ [f]) (fun g hg => by rw [List.length_set]; exact h1 g (by simp [hg]))
        (by
          rw [List.nodup_append]
          refine ⟨h2, by simp, ?_⟩
          intro a ha b hb
          simp only [List.mem_singleton] at hb
          subst hb
          rintro rfl
          exact hnf ha)
        (by
          intro g hg
          rw [hset]
          by_cases hgf : g = f
          · rw [if_pos hgf]
          · rw [if_neg hgf]
            rcases List.mem_append.mp hg with hg | hg
            · exact h3 g hg
            · exact absurd (List.mem_singleton.mp hg) hgf)
      refine ⟨used', fs, e1, by rw [e2, List.length_set], e3, ?_, ?_⟩
      · intro g
        rw [e4 g, hset]
        by_cases hgf : g = f
        · subst hgf
          simp [hff]
        · simp [hgf]
      · intro g hg
        have hgf : g ≠ f := by
          rintro rfl
          exact hg ⟨by simp, hff⟩
        rw [e5 g, hset, if_neg hgf]
        rintro ⟨a, b⟩
        rw [hset, if_neg hgf] at b
        exact hg ⟨by simp [a], b⟩

theorem mapM_some {α β : Type} {f : α → Option β} {g : α → β} : ∀ {l : List α}, (∀ a ∈ l, f a = some (g a)) → l.mapM f = some (l.map g)
  | [], _ => rfl
  | a :: l, h => by
    rw [List.mapM_cons, h a (by simp), mapM_some (g := g) (fun b hb => h b (by simp [hb]))]
    rfl

/-- The edge of a factor in the submodel. -/
def E (u v : Nat → Nat) (w : Nat → ℚ) (vs : List Nat) (j : Nat) : Edge := (min (vs.idxOf (u j)) (vs.idxOf (v j)), max (vs.idxOf (u j)) (vs.idxOf (v j)), w j)

theorem edge_spec (d : Data gm n m u v w) {vs : List Nat} {j : Nat} (hj : j ∈ inner m u v vs) : edge gm vs j = some (E u v w vs j) := by
  obtain ⟨h1, h2, h3⟩ := mem_inner.mp hj
  obtain ⟨f, f1, f2, f3, f4, f5⟩ := d.fac j h1
  unfold edge
  rw [f1]
  simp only
  rw [f3, f4, f5]
  simp only [Option.bind_some, globalToLocal]
  rw [if_pos h2, if_pos h3]
  rfl

theorem cutWeight_map {vs : List Nat} {z : List Nat} {x : Nat → Nat} (h : ∀ a ∈ vs, ∀ b ∈ vs, (x a = x b ↔ z.getD (vs.idxOf a) 0 = z.getD (vs.idxOf b) 0)) {fs : List Nat}
    (hfs : ∀ j ∈ fs, u j ∈ vs ∧ v j ∈ vs) : cutWeight (fs.map (E u v w vs)) z = S u v w fs x := by
  unfold cutWeight S
  rw [List.map_map]
  congr 1
  apply List.map_congr_left
  intro j hj
  obtain ⟨h1, h2⟩ := hfs j hj
  have hx := h _ h1 _ h2
  have hE : z.getD (E u v w vs j).1 0 = z.getD (E u v w vs j).2.1 0 ↔ x (u j) = x (v j) := by
    rw [hx]
    simp only [E]
    rcases Nat.le_total (vs.idxOf (u j)) (vs.idxOf (v j)) with hle | hle
    · rw [Nat.min_eq_left hle, Nat.max_eq_right hle]
    · rw [Nat.min_eq_right hle, Nat.max_eq_left hle]
      exact eq_comm
  simp only [Function.comp, PartitionMove.ne]
  by_cases he : x (u j) = x (v j)
  · rw [if_pos he, if_pos (hE.mpr he)]; ring
  · rw [if_neg he, if_neg (fun h' => he (hE.mp h'))]
    simp [E]

/-- The labels are optimal for the factors inside a set. -/
def Opt (m : Nat) (u v : Nat → Nat) (w : Nat → ℚ) (vs : List Nat) (x : Nat → Nat) : Prop := ∀ y, S u v w (inner m u v vs) x ≤ S u v w (inner m u v vs) y

theorem subLabels_spec (d : Data gm n m u v w) (huv : ∀ j, j < m → u j ≠ v j) {solver : Nat → List Edge → List Nat} (hs : Exact solver) {vs : List Nat} (hnd : vs.Nodup) (hvs : ∀ a ∈ vs, a < n)
    (h2 : ∀ y, vs.length = 2 → 0 ≤ S u v w (inner m u v vs) y) {used : List Bool} (hul : used.length = m)
    (hu : ∀ j, j < m → (u j ∈ vs ∨ v j ∈ vs) → (used[j]? = some false ↔ (u j ∈ vs ∧ v j ∈ vs))) :
    ∃ used' sub, subLabels gm solver used vs = some (used', sub) ∧ used'.length = m ∧ sub.length = vs.length ∧ (∀ l ∈ sub, l < vs.length) ∧
      (∀ j, j ∉ inner m u v vs → used'[j]? = used[j]?) ∧ ∀ (x : Nat → Nat) (off : Nat), (∀ a ∈ vs, x a = sub.getD (vs.idxOf a) 0 + off) → Opt m u v w vs x := by
  unfold subLabels
  by_cases h1 : vs.length = 1
  · rw [if_pos h1]
    refine ⟨used, [0], rfl, hul, by simp [h1], by simp [h1], fun _ _ => rfl, ?_⟩
    intro x off _ y
    have : inner m u v vs = [] := by
      rw [List.eq_nil_iff_forall_not_mem]
      intro j hj
      obtain ⟨a, b, c⟩ := mem_inner.mp hj
      obtain ⟨q, rfl⟩ := List.length_eq_one_iff.mp h1
      simp only [List.mem_singleton] at b c
      exact huv j a (b.trans c.symm)
    rw [this]; simp [S]
  · rw [if_neg h1]
    by_cases h2' : vs.length = 2
    · rw [if_pos h2']
      refine ⟨used, [0, 0], rfl, hul, by simp [h2'], by simp [h2'], fun _ _ => rfl, ?_⟩
      intro x off hx y
      have hz : S u v w (inner m u v vs) x = 0 := by
        unfold S
        apply List.sum_eq_zero
        intro q hq
        rw [List.mem_map] at hq
        obtain ⟨j, hj, rfl⟩ := hq
        obtain ⟨_, b, c⟩ := mem_inner.mp hj
        have hg : ∀ i, ([0, 0] : List Nat).getD i 0 = 0 := by
          intro i
          match i with
          | 0 => rfl
          | 1 => rfl
          | i + 2 => rfl
        rw [hx _ b, hx _ c, hg, hg]
        simp [PartitionMove.ne]
      rw [hz]
      exact h2 y h2'
    · rw [if_neg h2']
      have hadj : ∀ a, a ∈ vs → gm.adj[a]? = some (gm.adj[a]?.getD []) := by
        intro a ha
        obtain ⟨l, l1, _⟩ := d.adj a (hvs a ha)
        rw [l1]; rfl
      rw [mapM_some hadj]
      simp only
      have hmem : ∀ j, j ∈ (vs.map (fun a => gm.adj[a]?.getD [])).flatten ↔ j < m ∧ (u j ∈ vs ∨ v j ∈ vs) := by
        intro j
        simp only [List.mem_flatten, List.mem_map]
        constructor
        · rintro ⟨l, ⟨a, ha, rfl⟩, hj⟩
          obtain ⟨l, l1, l2⟩ := d.adj a (hvs a ha)
          rw [l1] at hj
          obtain ⟨q1, q2⟩ := (l2 j).mp hj
          refine ⟨q1, ?_⟩
          rcases q2 with q2 | q2
          · exact Or.inl (q2 ▸ ha)
          · exact Or.inr (q2 ▸ ha)
        · rintro ⟨hj, ha | ha⟩
          · obtain ⟨l, l1, l2⟩ := d.adj _ (hvs _ ha)
            exact ⟨l, ⟨_, ha, by rw [l1]; rfl⟩, (l2 j).mpr ⟨hj, Or.inl rfl⟩⟩
          · obtain ⟨l, l1, l2⟩ := d.adj _ (hvs _ ha)
            exact ⟨l, ⟨_, ha, by rw [l1]; rfl⟩, (l2 j).mpr ⟨hj, Or.inr rfl⟩⟩
      obtain ⟨used', fs, e1, e2, e3, e4, e5⟩ := takeFactors_spec _ used [] (fun f hf => by rw [hul]; exact ((hmem f).mp hf).1) List.nodup_nil (by simp)
      have hfs : ∀ j, j ∈ fs ↔ j ∈ inner m u v vs := by
        intro j
        rw [e4 j, hmem, mem_inner]
        constructor
        · rintro (h | ⟨⟨a, b⟩, c⟩)
          · simp at h
          · exact ⟨a, (hu j a b).mp c⟩
        · rintro ⟨a, b⟩
          exact Or.inr ⟨⟨a, Or.inl b.1⟩, (hu j a (Or.inl b.1)).mpr b⟩
      have hperm : fs.Perm (inner m u v vs) := (List.perm_ext_iff_of_nodup e3 (List.Nodup.filter _ List.nodup_range)).mpr hfs
      rw [e1]
      simp only
      rw [mapM_some (g := E u v w vs) (fun j hj => edge_spec d ((hfs j).mp hj))]
      simp only
      refine ⟨used', _, rfl, by rw [e2, hul], hs.length _ _, hs.small _ _, ?_, ?_⟩
      · intro j hj
        apply e5
        rintro ⟨a, b⟩
        apply hj
        rw [← hfs, e4]
        exact Or.inr ⟨a, b⟩
      · intro x off hx y
        have hin : ∀ j ∈ fs, u j ∈ vs ∧ v j ∈ vs := fun j hj => (mem_inner.mp ((hfs j).mp hj)).2
        have hSx : ∀ x, S u v w (inner m u v vs) x = S u v w fs x := fun x => ((hperm.map _).sum_eq).symm
        rw [hSx, hSx]
        let z : List Nat := vs.map (fun a => (vs.map y).idxOf (y a))
        have hzget : ∀ a ∈ vs, z.getD (vs.idxOf a) 0 = (vs.map y).idxOf (y a) := by
          intro a ha
          have hlt := List.idxOf_lt_length_of_mem ha
          have : z[vs.idxOf a]? = some ((vs.map y).idxOf (y a)) := by
            simp only [z, List.getElem?_map]
            rw [List.getElem?_eq_getElem hlt, List.getElem_idxOf hlt]
            rfl
          rw [List.getD_eq_getElem?_getD, this]; rfl
        have hb := hs.best vs.length (fs.map (E u v w vs)) z (by simp [z]) (by
          intro l hl
          simp only [z, List.mem_map] at hl
          obtain ⟨a, ha, rfl⟩ := hl
          have := List.idxOf_lt_length_of_mem (List.mem_map_of_mem (f := y) ha)
          simpa using this)
        rw [cutWeight_map (x := x) (fun a ha b hb => by rw [hx a ha, hx b hb]; omega) hin,
          cutWeight_map (x := y) (fun a ha b hb => by
            rw [hzget a ha, hzget b hb]
            constructor
            · intro h; rw [h]
            · intro h
              exact (List.idxOf_inj (List.mem_map_of_mem ha)).mp h) hin] at hb
        exact hb

/-! ### the loop -/

theorem writeLabels_spec (off : Nat) : ∀ (vs sub arg : List Nat), vs.Nodup → sub.length = vs.length → (∀ a ∈ vs, a < arg.length) →
    ∃ arg', writeLabels off vs sub arg = some arg' ∧ arg'.length = arg.length ∧ (∀ a, a ∉ vs → arg'[a]? = arg[a]?) ∧ ∀ a ∈ vs, arg'[a]? = some (sub.getD (vs.idxOf a) 0 + off)
  | [], _, arg, _, _, _ => ⟨arg, by simp [writeLabels], rfl, by simp, by simp⟩
  | b :: vs, [], arg, _, h, _ => by simp at h
  | b :: vs, l :: sub, arg, hnd, hlen, hlt => by
    rw [List.nodup_cons] at hnd
    have hb := hlt b (by simp)
    rw [writeLabels, setAt_of_lt _ hb]
    simp only
    obtain ⟨arg', e1, e2, e3, e4⟩ := writeLabels_spec off vs sub (arg.set b (l + off)) hnd.2 (by simpa using hlen) (fun a ha => by rw [List.length_set]; exact hlt a (by simp [ha]))
    refine ⟨arg', e1, by rw [e2, List.length_set], ?_, ?_⟩
    · intro a ha
      simp only [List.mem_cons, not_or] at ha
      rw [e3 a ha.2, List.getElem?_set_ne (fun h => ha.1 h.symm)]
    · intro a ha
      by_cases hab : a = b
      · subst hab
        rw [e3 a hnd.1, List.getElem?_set_self hb]
        simp
      · have ha' : a ∈ vs := by
          rcases List.mem_cons.mp ha with h | h
          · exact absurd h hab
          · exact h
        rw [e4 a ha', List.idxOf_cons_ne _ (fun h => hab h.symm)]
        simp

theorem subLoop_spec (d : Data gm n m u v w) (huv : ∀ j, j < m → u j ≠ v j) {solver : Nat → List Edge → List Nat} (hs : Exact solver) :
    ∀ (comps : List (List Nat)) (off : Nat) (used : List Bool) (arg : List Nat), (∀ vs ∈ comps, vs.Nodup ∧ (∀ a ∈ vs, a < n) ∧ ∀ y, vs.length = 2 → 0 ≤ S u v w (inner m u v vs) y) →
    comps.Pairwise (fun a b => ∀ q ∈ a, q ∉ b) → used.length = m →
    (∀ vs ∈ comps, ∀ j, j < m → (u j ∈ vs ∨ v j ∈ vs) → (used[j]? = some false ↔ (u j ∈ vs ∧ v j ∈ vs))) → arg.length = n →
    ∃ arg', subLoop gm solver comps off used arg = some arg' ∧ arg'.length = n ∧ (∀ a, a ∉ comps.flatten → arg'[a]? = arg[a]?) ∧
      (∀ a ∈ comps.flatten, off ≤ arg'.getD a 0 ∧ arg'.getD a 0 < off + comps.flatten.length) ∧ (∀ vs ∈ comps, Opt m u v w vs (fun a => arg'.getD a 0)) ∧
      comps.Pairwise (fun a b => ∀ q ∈ a, ∀ q' ∈ b, arg'.getD q 0 ≠ arg'.getD q' 0)
  | [], off, used, arg, _, _, _, _, h => ⟨arg, rfl, h, by simp, by simp, by simp, by simp⟩
  | vs :: rest, off, used, arg, hc, hd, hul, hu, hal => by
    obtain ⟨c1, c2, c3⟩ := hc vs (by simp)
    rw [List.pairwise_cons] at hd
    obtain ⟨used', sub, s1, s2, s3, s4, s5, s6⟩ := subLabels_spec d huv hs c1 c2 c3 hul (hu vs (by simp))
    obtain ⟨arg1, a1, a2, a3, a4⟩ := writeLabels_spec off vs sub arg c1 s3 (fun a ha => by rw [hal]; exact c2 a ha)
    rw [subLoop, s1]
    simp only
    rw [a1]
    simp only
    obtain ⟨arg', e1, e2, e3, e4, e5, e6⟩ := subLoop_spec d huv hs rest (off + vs.length) used' arg1 (fun q hq => hc q (by simp [hq])) hd.2 s2
      (by
        intro q hq j hj hjq
        rw [s5 j]
        · exact hu q (by simp [hq]) j hj hjq
        · intro hin
          obtain ⟨_, i1, i2⟩ := mem_inner.mp hin
          rcases hjq with h | h
          · exact hd.1 q hq _ i1 h
          · exact hd.1 q hq _ i2 h) (by rw [a2, hal])
    have hkeep : ∀ a ∈ vs, arg'.getD a 0 = sub.getD (vs.idxOf a) 0 + off := by
      intro a ha
      have hnot : a ∉ rest.flatten := by
        intro h
        obtain ⟨q, hq, haq⟩ := List.mem_flatten.mp h
        exact hd.1 q hq a ha haq
      rw [List.getD_eq_getElem?_getD, e3 a hnot, a4 a ha]; rfl
    have hsub : ∀ a ∈ vs, sub.getD (vs.idxOf a) 0 < vs.length := by
      intro a ha
      have hlt : vs.idxOf a < sub.length := by rw [s3]; exact List.idxOf_lt_length_of_mem ha
      rw [List.getD_eq_getElem?_getD, List.getElem?_eq_getElem hlt]
      exact s4 _ (List.getElem_mem hlt)
    refine ⟨arg', e1, e2, ?_, ?_, ?_, ?_⟩
    · intro a ha
      simp only [List.flatten_cons, List.mem_append, not_or] at ha
      rw [e3 a ha.2, a3 a ha.1]
    · intro a ha
      simp only [List.flatten_cons, List.mem_append] at ha
      simp only [List.flatten_cons, List.length_append]
      rcases ha with ha | ha
      · have := hsub a ha
        rw [hkeep a ha]
        omega
      · have := e4 a ha
        omega
    · intro q hq
      rcases List.mem_cons.mp hq with rfl | hq
      · exact s6 _ off hkeep
      · exact e5 q hq
    · rw [List.pairwise_cons]
      refine ⟨?_, e6⟩
      intro q hq a ha b hb
      have h1 := hsub a ha
      have h2 := (e4 b (List.mem_flatten.mpr ⟨q, hq, hb⟩)).1
      rw [hkeep a ha]
      omega

/-! ### the decomposition -/

/-- The merges of the decomposition. -/
def merges (u v : Nat → Nat) (w : Nat → ℚ) (threshold : ℚ) (l : List Nat) : List PartitionOp := (l.filter (fun j => decide (w j > threshold))).map (fun j => .merge (u j) (v j))

theorem decompose_spec (gm : GM ℚ) (threshold : ℚ) (u v : Nat → Nat) (w : Nat → ℚ) : ∀ (l : List Nat) (fs : List FactorRec) (P P' : Partition), l.length = fs.length →
    (∀ i, i < l.length → ∃ f j, fs[i]? = some f ∧ l[i]? = some j ∧ f.visSize = 2 ∧ gm.visAt f 0 = some (u j) ∧ gm.visAt f 1 = some (v j) ∧ weight gm f = some (w j)) →
    P.run (merges u v w threshold l) = some P' → decompose gm threshold fs P = .ok P' ()
  | [], [], P, P', _, _, h => by
    simp only [merges, List.filter_nil, List.map_nil, Partition.run, Option.some.injEq] at h
    rw [decompose, h]
  | [], _ :: _, _, _, h, _, _ => by simp at h
  | _ :: _, [], _, _, h, _, _ => by simp at h
  | j :: l, f :: fs, P, P', hl, hf, h => by
    obtain ⟨f', j', f1, f2, f3, f4, f5, f6⟩ := hf 0 (by simp)
    simp only [List.getElem?_cons_zero, Option.some.injEq] at f1 f2
    subst f1 f2
    have ih := fun Q => decompose_spec gm threshold u v w l fs Q P' (by simpa using hl) (fun i hi => by
      obtain ⟨f', j', g1, g2, g3⟩ := hf (i + 1) (by simpa using hi)
      exact ⟨f', j', by simpa using g1, by simpa using g2, g3⟩)
    rw [decompose, if_pos f3, f4, f5, f6]
    simp only
    by_cases hw : w j > threshold
    · rw [if_pos hw]
      simp only [merges, List.filter_cons, hw, decide_true, if_true, List.map_cons, Partition.run, Partition.step] at h
      cases hm : P.merge (u j) (v j) with
      | none => rw [hm] at h; simp at h
      | some Q =>
        rw [hm] at h
        simp only
        exact ih Q h
    · rw [if_neg hw]
      simp only [merges, List.filter_cons, hw, decide_false] at h
      exact ih P h

end DMC
end OpenGM
