import Verif.Lemmas.DualDecompositionCalls
import Verif.Lemmas.DecompositionReorder
import Mathlib.Algebra.Order.Ring.Defs
/-
Dual decomposition: the step of the dual variables and the bounds.
-/
namespace OpenGM
namespace DualDecomposition
open Spec Decomposition
variable {V : Type} [Field V]

theorem gather_spec {gm : GM V} {p : Problem V} {d : Decomposition} {maxOrder : Nat} {ns : List (List Nat)} (h : Ctx gm p d maxOrder ns) {Y : List (List Nat)}
    (hY : List.Forall₂ RowLabeling ns Y) {s : SubFactor} {vars : List Nat} (hm : s.model < d.numModels) (hc : CopiesOf d.varLists s.model s.indices vars) {n : Nat}
    (hn : n = vars.length) : ∃ c, gather Y s n = some c ∧ InShape (restrict p.numLabels vars) c := by
  have hl := hY.length_eq
  have hml : s.model < ns.length := by rw [h.nsLen]; exact hm
  have hmy : s.model < Y.length := by rw [← hl]; exact hml
  have hrow := List.getElem?_eq_getElem hml
  have hy := List.getElem?_eq_getElem hmy
  have hR : RowLabeling ns[s.model] Y[s.model] := by
    have := (List.forall₂_iff_get.mp hY).2 s.model hml hmy
    simpa only [List.get_eq_getElem] using this
  obtain ⟨h1, h2⟩ := h.row hrow hc
  have hlen : s.indices.length = n := by rw [hn]; exact hc.length_eq
  refine ⟨restrict Y[s.model] s.indices, ?_, ?_⟩
  · unfold gather
    rw [mapM_some (g := fun j => Y[s.model].getD (s.indices.getD j 0) 0)]
    · congr 1
      apply List.ext_getElem
      · simp [restrict, hlen]
      · intro j hj1 hj2
        have hj : j < s.indices.length := by simpa [restrict] using hj2
        simp only [List.getElem_map, List.getElem_range, restrict, List.getD_eq_getElem?_getD, List.getElem?_eq_getElem hj, Option.getD_some]
    · intro j hj
      have hj : j < s.indices.length := by rw [hlen]; simpa using hj
      have hk : s.indices[j] < Y[s.model].length := by
        rw [hR.1]
        exact h1 _ (List.getElem_mem hj)
      simp only [List.getElem?_eq_getElem hj, List.getD_eq_getElem?_getD, Option.getD_some, entry, hy, List.getElem?_eq_getElem hk]
  · rw [← h2]
    exact InShape_restrict _ _ _ hR.1 hR.2 h1

theorem inShape_bool {shape s : List Nat} (h : InShape shape s) : (decide (s.length = shape.length) && inShape shape s) = true := by
  have := inShape_of_InShape _ _ [] h
  rw [List.append_nil] at this
  simp [this, InShape_length _ _ h]

theorem addTo_spec {shape : List Nat} (T : List Nat → V) {s : List Nat} (h : InShape shape s) (x : V) :
    addTo shape T s x = some (fun c => if c = s then T c + x else T c) := by
  unfold addTo
  rw [if_pos (inShape_bool h)]

theorem subAll_spec {shape s : List Nat} (h : InShape shape s) (x : V) : ∀ (Ts : List (List Nat → V)),
    subAll shape s x Ts = some (Ts.map (fun T c => if c = s then T c + -x else T c))
  | [] => rfl
  | T :: Ts => by
    rw [subAll, addTo_spec T h, subAll_spec h x Ts]
    rfl

theorem sum_subAll (s c : List Nat) (x : V) (Ts : List (List Nat → V)) :
    ((Ts.map (fun T c => if c = s then T c + -x else T c)).map (fun T => T c)).sum = (Ts.map (fun T => T c)).sum + (if c = s then -((Ts.length : V) * x) else 0) := by
  induction Ts with
  | nil => simp
  | cons T Ts ih =>
    rw [List.map_cons, List.map_cons, List.sum_cons, ih, List.map_cons, List.sum_cons, List.length_cons]
    by_cases hc : c = s
    · simp only [if_pos hc]
      push_cast
      ring
    · simp only [if_neg hc]
      ring

theorem sum_set (f : (List Nat → V) → V) : ∀ (Ts : List (List Nat → V)) (i : Nat) (T T' : List Nat → V), Ts[i]? = some T →
    ((Ts.set i T').map f).sum = (Ts.map f).sum + (f T' - f T)
  | [], _, _, _, h => by simp at h
  | A :: Ts, 0, T, T', h => by
    simp only [List.getElem?_cons_zero, Option.some.injEq] at h
    subst h
    simp only [List.set_cons_zero, List.map_cons, List.sum_cons]
    ring
  | A :: Ts, i + 1, T, T', h => by
    rw [List.getElem?_cons_succ] at h
    rw [List.set_cons_succ, List.map_cons, List.sum_cons, sum_set f Ts i T T' h, List.map_cons, List.sum_cons]
    ring

theorem blockLoop_spec [CharZero V] (states : List (List Nat)) (step : V) (shape : List Nat) (n : Nat) : ∀ (l : List SubFactor) (i : Nat) (Ts : List (List Nat → V)),
    i + l.length = Ts.length → (∀ s ∈ l, ∃ c, gather states s n = some c ∧ InShape shape c) →
    ∃ Ts', blockLoop states step shape n l i Ts = some Ts' ∧ Ts'.length = Ts.length ∧ ∀ c, (Ts'.map (fun T => T c)).sum = (Ts.map (fun T => T c)).sum
  | [], i, Ts, _, _ => ⟨Ts, rfl, rfl, fun _ => rfl⟩
  | s :: rest, i, Ts, hi, hl => by
    rw [List.length_cons] at hi
    obtain ⟨c, e1, hc⟩ := hl s (by simp)
    have hiT : i < Ts.length := by omega
    rw [blockLoop, e1, List.getElem?_eq_getElem hiT]
    simp only [addTo_spec _ hc, subAll_spec hc]
    obtain ⟨Ts', e2, hl', hs⟩ := blockLoop_spec states step shape n rest (i + 1)
      ((Ts.set i (fun c' => if c' = c then Ts[i] c' + step else Ts[i] c')).map (fun T c' => if c' = c then T c' + -(step / (Ts.length : V)) else T c'))
      (by simp; omega) (fun s' hs' => hl s' (by simp [hs']))
    refine ⟨Ts', e2, by simpa using hl', ?_⟩
    intro c'
    rw [hs c', sum_subAll, sum_set _ _ _ Ts[i] _ (List.getElem?_eq_getElem hiT), List.length_set]
    have h0 : (Ts.length : V) ≠ 0 := by exact_mod_cast (by omega : Ts.length ≠ 0)
    by_cases hcc : c' = c
    · simp only [if_pos hcc]
      field_simp
      ring
    · simp only [if_neg hcc]
      ring

theorem dualStep_spec [CharZero V] {gm : GM V} {p : Problem V} {d : Decomposition} {maxOrder : Nat} {ns : List (List Nat)} (h : Ctx gm p d maxOrder ns) {Y : List (List Nat)}
    (hY : List.Forall₂ RowLabeling ns Y) (step : V) : ∀ (blocks : List Block) (mem : Mem V), (∀ b ∈ blocks, BlockOk p d b) → MemOk blocks mem → ZeroSum mem →
    ∃ mem', dualStep Y step blocks mem = some mem' ∧ MemOk blocks mem' ∧ ZeroSum mem'
  | [], mem, _, _, _ => ⟨[], rfl, rfl, by intro b hb; simp at hb⟩
  | b :: bs, [], _, hM, _ => by simp [MemOk] at hM
  | b :: bs, Ts :: mem, hb, hM, hz => by
    obtain ⟨hM1, hM2⟩ : Ts.length = b.subs.length ∧ MemOk bs mem := by
      simpa [MemOk] using hM
    obtain ⟨mem', e1, h1, h2⟩ := dualStep_spec h hY step bs mem (fun b' hb' => hb b' (by simp [hb'])) hM2 (fun B hB => hz B (by simp [hB]))
    obtain ⟨hne, vars, hsh, _, hcop⟩ := hb b (by simp)
    have hpos := List.length_pos_iff.mpr hne
    have h0 : b.subs[0]? = some b.subs[0] := List.getElem?_eq_getElem hpos
    have hlen0 : b.subs[0].indices.length = vars.length := (hcop _ (List.getElem_mem hpos)).2.length_eq
    obtain ⟨Ts', e2, h3, h4⟩ := blockLoop_spec Y step b.shape b.subs[0].indices.length b.subs 0 Ts (by omega) (by
      intro s hs
      rw [hsh]
      exact gather_spec h hY (hcop s hs).1 (hcop s hs).2 hlen0)
    rw [dualStep, h0]
    simp only [e1, e2]
    refine ⟨_, rfl, ?_, ?_⟩
    · unfold MemOk at h1 ⊢
      rw [List.map_cons, List.map_cons, h1, h3, hM1]
    · intro B hB c
      rcases List.mem_cons.mp hB with rfl | hB
      · rw [h4 c]
        exact hz Ts (by simp) c
      · exact h2 B hB c

end DualDecomposition
end OpenGM
