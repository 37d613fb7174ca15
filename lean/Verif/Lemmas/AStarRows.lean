import Verif.Lemmas.AStarInfer
import Verif.Lemmas.EnergySum
import Verif.Spec.Ranking
/-
Lemmas for the fast heuristic of A*: rows of energies, their sums, and the steps on single rows.
-/
namespace OpenGM
namespace AStar
open Spec
variable {V : Type}

/-- Entry of a row for label `l`; a row of one entry stands for a variable that is settled. -/
def pick (neutral : V) (row : List V) (l : Nat) : V := row.getD l (row.getD 0 neutral)

theorem pick_lt {neutral : V} {row : List V} {l : Nat} (h : l < row.length) : pick neutral row l = row[l] := by
  simp [pick, List.getD_eq_getElem?_getD, List.getElem?_eq_getElem h]

theorem pick_single (neutral y : V) (l : Nat) : pick neutral [y] l = y := by
  cases l <;> simp [pick, List.getD_eq_getElem?_getD]

theorem pick_replicate (neutral : V) (n l : Nat) : pick neutral (List.replicate n neutral) l = neutral := by
  simp only [pick, List.getD_eq_getElem?_getD, List.getElem?_replicate]
  split
  · rfl
  · simp only [Option.getD_none]
    split <;> rfl

/-- The energies of all variables under labeling `z` combined. -/
def rowsValue (o : Operation V) (z : List Nat) : List (List V) → Nat → V
  | [], _ => o.neutral
  | row :: rows, i => o.op (pick o.neutral row (z.getD i 0)) (rowsValue o z rows (i + 1))

theorem rowsValue_set {o : Operation V} (ho : o.IsCommMonoid) (z : List Nat) (x : V) : ∀ (rows : List (List V)) (i v : Nat) (row row' : List V), rows[v]? = some row →
    pick o.neutral row' (z.getD (i + v) 0) = o.op (pick o.neutral row (z.getD (i + v) 0)) x →
    rowsValue o z (rows.set v row') i = o.op (rowsValue o z rows i) x
  | [], _, _, _, _, h, _ => by simp at h
  | r :: rows, i, 0, row, row', h, hx => by
    simp only [List.getElem?_cons_zero, Option.some.injEq] at h
    subst h
    simp only [List.set_cons_zero, rowsValue]
    rw [Nat.add_zero] at hx
    rw [hx, ho.assoc, ho.assoc, ho.comm x]
  | r :: rows, i, v + 1, row, row', h, hx => by
    simp only [List.set_cons_succ, rowsValue]
    rw [rowsValue_set ho z x rows (i + 1) v row row' (by simpa using h) (by rw [show i + 1 + v = i + (v + 1) by omega]; exact hx), ho.assoc]

theorem rowsValue_neutral {o : Operation V} (ho : o.IsCommMonoid) (z : List Nat) : ∀ (ns : List Nat) (i : Nat),
    rowsValue o z (ns.map (fun n => List.replicate n o.neutral)) i = o.neutral
  | [], _ => rfl
  | n :: ns, i => by
    simp only [List.map_cons, rowsValue]
    rw [pick_replicate, rowsValue_neutral ho z ns, ho.neutral_left]

/-- A relation between values that is compatible with the operation. -/
structure Rel (o : Operation V) (R : V → V → Prop) : Prop where
  refl : ∀ a, R a a
  trans : ∀ a b c, R a b → R b c → R a c
  mono : ∀ a b c, R a b → R (o.op a c) (o.op b c)

theorem Rel.mono_left {o : Operation V} {R : V → V → Prop} (ho : o.IsCommMonoid) (h : Rel o R) {a b c : V} (hab : R a b) : R (o.op c a) (o.op c b) := by
  rw [ho.comm c a, ho.comm c b]; exact h.mono _ _ _ hab

theorem Rel.mono₂ {o : Operation V} {R : V → V → Prop} (ho : o.IsCommMonoid) (h : Rel o R) {a b c d : V} (hab : R a b) (hcd : R c d) : R (o.op a c) (o.op b d) :=
  h.trans _ _ _ (h.mono _ _ _ hab) (h.mono_left ho hcd)

theorem rel_eq (o : Operation V) : Rel o (· = ·) := ⟨fun _ => rfl, fun _ _ _ => Eq.trans, fun _ _ _ h => by rw [h]⟩

/-- "Not worse". -/
theorem rel_notWorse {o : Operation V} {bop : V → V → Bool} (ho : o.IsCommMonoid) (h : Order bop) (hr : Reflects o bop) : Rel o (fun a b => bop b a = false) where
  refl a := h.strict.irrefl a
  trans a b c h1 h2 := h.neg h1 h2
  mono a b c h1 := by
    cases hc : bop (o.op b c) (o.op a c) with
    | false => rfl
    | true =>
      rw [ho.comm b c, ho.comm a c] at hc
      have := hr c b a hc
      rw [h1] at this
      cases this

/-! ### Steps on a row -/

theorem acc_left {e : Env V} (h : Order e.bop) (a b : V) : e.bop a (e.acc a b) = false := by
  unfold Env.acc
  split
  · exact h.strict.irrefl a
  · next hb => simpa using hb

theorem acc_right {e : Env V} (h : Order e.bop) (a b : V) : e.bop b (e.acc a b) = false := by
  unfold Env.acc
  split
  · next hb =>
    cases hc : e.bop b a with
    | false => rfl
    | true =>
      have := h.strict.trans _ _ _ hb hc
      rw [h.strict.irrefl] at this
      cases this
  · exact h.strict.irrefl b

theorem foldl_acc {e : Env V} (h : Order e.bop) : ∀ (l : List V) (a : V), e.bop a (l.foldl e.acc a) = false ∧ ∀ b ∈ l, e.bop b (l.foldl e.acc a) = false
  | [], a => ⟨h.strict.irrefl a, by simp⟩
  | b :: l, a => by
    obtain ⟨h1, h2⟩ := foldl_acc h l (e.acc a b)
    simp only [List.foldl_cons]
    refine ⟨h.neg h1 (acc_left h a b), fun c hc => ?_⟩
    rcases List.mem_cons.mp hc with rfl | hc
    · exact h.neg h1 (acc_right h a c)
    · exact h2 c hc

theorem foldl_acc_replicate {e : Env V} (h : Order e.bop) (x : V) : ∀ n, (List.replicate n x).foldl e.acc x = x
  | 0 => rfl
  | n + 1 => by
    rw [List.replicate_succ, List.foldl_cons]
    have : e.acc x x = x := by unfold Env.acc; split <;> rfl
    rw [this, foldl_acc_replicate h x n]

theorem addRow_spec (o : Operation V) {f : Nat → Option V} {g : Nat → V} : ∀ (js : List Nat) (row : List V), js.Nodup → (∀ j ∈ js, j < row.length) →
    (∀ j ∈ js, f j = some (g j)) →
    ∃ row', addRow o f js row = some row' ∧ row'.length = row.length ∧
      ∀ j : Nat, row'[j]? = if j ∈ js then (row[j]?).map (fun y => o.op y (g j)) else row[j]?
  | [], row, _, _, _ => ⟨row, rfl, rfl, by simp⟩
  | j :: js, row, hnd, hlt, hf => by
    have hnd' := List.nodup_cons.mp hnd
    have hj := hlt j (by simp)
    unfold addRow
    rw [hf j (by simp), List.getElem?_eq_getElem hj]
    simp only
    obtain ⟨row', h1, h2, h3⟩ := addRow_spec o js (row.set j (o.op row[j] (g j))) hnd'.2 (fun k hk => by simpa using hlt k (by simp [hk]))
      (fun k hk => hf k (by simp [hk]))
    refine ⟨row', h1, by simpa using h2, fun k => ?_⟩
    rw [h3 k]
    by_cases hkj : k = j
    · subst hkj
      rw [if_neg hnd'.1, if_pos (by simp), List.getElem?_set_self hj, List.getElem?_eq_getElem hj]
      rfl
    · rw [List.getElem?_set_ne (fun h => hkj h.symm)]
      simp [hkj]

/-- `addEach` on a full row. -/
theorem addEach_spec (o : Operation V) {gm : GM V} {energy : List (List V)} {v n : Nat} {row : List V} {f : Nat → Option V} {g : Nat → V}
    (h1 : energy[v]? = some row) (h2 : gm.numLabels[v]? = some n) (h3 : row.length = n) (hf : ∀ j < n, f j = some (g j)) :
    ∃ row', addEach o gm energy v f = some (energy.set v row') ∧ row'.length = n ∧ ∀ l < n, pick o.neutral row' l = o.op (pick o.neutral row l) (g l) := by
  obtain ⟨row', a1, a2, a3⟩ := addRow_spec o (f := f) (g := g) (List.range n) row List.nodup_range (fun j hj => by rw [h3]; exact List.mem_range.mp hj)
    (fun j hj => hf j (List.mem_range.mp hj))
  refine ⟨row', ?_, by omega, fun l hl => ?_⟩
  · unfold addEach
    rw [h1, h2]
    simp only
    rw [a1]
  · have := a3 l
    rw [if_pos (List.mem_range.mpr hl), List.getElem?_eq_getElem (by omega : l < row'.length), List.getElem?_eq_getElem (by omega : l < row.length)] at this
    simp only [Option.map_some, Option.some.injEq] at this
    rw [pick_lt (by omega : l < row'.length), pick_lt (by omega : l < row.length), this]

theorem bestOver_spec {e : Env V} (h : Order e.bop) {f : Nat → Option V} {g : Nat → V} {row : List V} : ∀ (js : List Nat) (best : V),
    (∀ j ∈ js, f j = some (g j) ∧ j < row.length) →
    ∃ b, bestOver e f row js best = some b ∧ e.bop best b = false ∧ ∀ j ∈ js, e.bop (e.o.op (g j) (pick e.o.neutral row j)) b = false
  | [], best, _ => ⟨best, rfl, h.strict.irrefl _, by simp⟩
  | j :: js, best, hf => by
    obtain ⟨f1, f2⟩ := hf j (by simp)
    obtain ⟨b, b1, b2, b3⟩ := bestOver_spec h (f := f) (g := g) (row := row) js (e.acc best (e.o.op (g j) row[j])) (fun k hk => hf k (by simp [hk]))
    refine ⟨b, ?_, h.neg b2 (acc_left h _ _), fun k hk => ?_⟩
    · unfold bestOver
      rw [f1, List.getElem?_eq_getElem f2]
      exact b1
    · rcases List.mem_cons.mp hk with rfl | hk
      · rw [pick_lt f2]
        exact h.neg b2 (acc_right h _ _)
      · exact b3 k hk

end AStar
end OpenGM
