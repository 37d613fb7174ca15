import Verif.Lemmas.PottsG
import Verif.Lemmas.MarrayOps
/-
C60: PottsGFunction is a function of the partition of its variables into classes of equal label.
-/
namespace OpenGM.Functions.PottsG
open Spec Partitions
open scoped Classical

variable {V : Type}

/-- `f` was constructed with the given shape and changed by `setByLabel`/`setByPartition`, the static table of partitions is
`parts` now (other objects may have used it in between), and `g` is the table a user has in mind: `zero` or the listed values
first (`num` numbers the partitions), and a new value on all labelings with the partition that was set. -/
inductive Built (zero : V) (shape : List Nat) (num : List Nat → Nat) : List Nat → PottsG V → (List Nat → V) → Prop
  | make {parts parts' f} : Reachable width parts → make zero shape parts = .ok f parts' → Built zero shape num parts' f (fun _ => zero)
  | values {parts parts' f vs} {g : List Nat → V} : Reachable width parts → makeValues zero shape vs parts = .ok f parts' →
      (∀ c : List Nat, c.length = shape.length → vs[num c]? = some (g c)) → Built zero shape num parts' f g
  | setByLabel {parts parts' f f' g l v} : Built zero shape num parts f g → l.length = shape.length → f.setByLabel l v parts = .ok f' parts' →
      Built zero shape num parts' f' (fun c => if SamePartition l c then v else g c)
  | setByPartition {parts f f' g l v} : Built zero shape num parts f g → l.length = shape.length →
      f.setByPartition (label2Number width l) v parts = some f' → Built zero shape num parts f' (fun c => if SamePartition l c then v else g c)
  | eval {parts parts' f g c x} : Built zero shape num parts f g → f.eval zero c parts = .ok x parts' → Built zero shape num parts' f g
  | other {parts parts' f g N} : Built zero shape num parts f g → buildPartitions width N parts = .ok () parts' → Built zero shape num parts' f g
  | otherThrow {parts parts' f g N} : Built zero shape num parts f g → buildPartitions width N parts = .throw parts' → Built zero shape num parts' f g

/-- `num` numbers the partitions of `N` elements from 0 to `b - 1`, in the order of the numbers `label2Number`. -/
structure IsNumbering (N b : Nat) (num : List Nat → Nat) : Prop where
  same : ∀ l l' : List Nat, l.length = N → l'.length = N → (num l = num l' ↔ SamePartition l l')
  lt : ∀ l : List Nat, l.length = N → num l < b
  surj : ∀ n, n < b → ∃ l : List Nat, l.length = N ∧ num l = n
  order : ∀ l l' : List Nat, l.length = N → l'.length = N → (num l < num l' ↔ label2Number width l < label2Number width l')

theorem isNumbering_idx {N b : Nat} (hN : N ≤ 11) (hb : bell[N]? = some b) : IsNumbering N b idx := by
  refine ⟨fun l l' h h' => idx_eq_iff (by omega), fun l h => idx_lt (by rw [h]; exact hb), fun n hn => idx_surj hb hn, ?_⟩
  intro l l' h h'
  rw [idx_lt_iff (by omega), label2Number_eq (bits_le (by omega)), label2Number_eq (bits_le (by omega))]

/-- What holds of a function object in memory. -/
structure Holds (shape : List Nat) (b : Nat) (parts : List Nat) (f : PottsG V) (g : List Nat → V) : Prop where
  shape_eq : f.shape = shape
  size : f.size = shape.prod
  len : f.values.length = b
  vals : ∀ c : List Nat, c.length = shape.length → f.values[idx c]? = some (g c)
  reach : Reachable width parts
  cov : 4 < shape.length → Covers shape.length parts

theorem make_holds (zero : V) {shape : List Nat} {b : Nat} {parts : List Nat} (hN : shape.length ≤ 11) (hb : bell[shape.length]? = some b)
    (hr : Reachable width parts) : ∃ f parts', make zero shape parts = .ok f parts' ∧ Holds shape b parts' f (fun _ => zero) := by
  have hv : ∀ c : List Nat, c.length = shape.length → (List.replicate b zero)[idx c]? = some zero := by
    intro c hc
    rw [List.getElem?_replicate, if_pos (idx_lt (by rw [hc]; exact hb))]
  have hs : shape.foldl (· * ·) 1 = shape.prod := by rw [List.prod_eq_foldl]
  unfold make bellNumber
  rw [hb]
  simp only
  by_cases c : shape.length ≤ 4
  · rw [if_pos c]
    exact ⟨_, _, rfl, rfl, hs, by simp, hv, hr, fun h => absurd h (by omega)⟩
  · rw [if_neg c]
    obtain ⟨p, h1, h2, h3⟩ := build_covers hN hr
    rw [h1]
    exact ⟨_, _, rfl, rfl, hs, by simp, hv, h3, fun _ => h2⟩

theorem makeValues_holds (zero : V) {shape : List Nat} {b : Nat} {parts : List Nat} (hN : shape.length ≤ 11) (hb : bell[shape.length]? = some b)
    (hr : Reachable width parts) {vs : List V} (hlen : b ≤ vs.length) {g : List Nat → V}
    (hg : ∀ c : List Nat, c.length = shape.length → vs[idx c]? = some (g c)) :
    ∃ f parts', makeValues zero shape vs parts = .ok f parts' ∧ Holds shape b parts' f g := by
  obtain ⟨f, p, h1, h2⟩ := make_holds zero hN hb hr
  unfold makeValues
  rw [h1]
  simp only
  rw [if_pos (by rw [h2.len]; exact hlen)]
  refine ⟨_, _, rfl, rfl, h2.size, by simp [h2.len, hlen], ?_, h2.reach, h2.cov⟩
  intro c hc
  simp only
  rw [List.getElem?_take_of_lt (by rw [h2.len]; exact idx_lt (by rw [hc]; exact hb)), hg c hc]

theorem vals_set {shape : List Nat} {b : Nat} (hb : bell[shape.length]? = some b) {values : List V} (hlen : values.length = b) {g : List Nat → V}
    (h : ∀ c : List Nat, c.length = shape.length → values[idx c]? = some (g c)) {l : List Nat} (hl : l.length = shape.length) (v : V) :
    setAt values (idx l) v = some (values.set (idx l) v) ∧
    ∀ c : List Nat, c.length = shape.length → (values.set (idx l) v)[idx c]? = some (if SamePartition l c then v else g c) := by
  have hlt : idx l < values.length := by rw [hlen]; exact idx_lt (by rw [hl]; exact hb)
  refine ⟨setAt_of_lt _ hlt, ?_⟩
  intro c hc
  by_cases hs : SamePartition l c
  · rw [if_pos hs, ← (idx_eq_iff (by omega)).mpr hs, List.getElem?_set_self hlt]
  · rw [if_neg hs, List.getElem?_set_ne (fun he => hs ((idx_eq_iff (by omega)).mp he)), h c hc]

theorem Holds.setByPartition {shape : List Nat} {b : Nat} {parts : List Nat} {f : PottsG V} {g : List Nat → V} (hN : shape.length ≤ 11)
    (hb : bell[shape.length]? = some b) (h : Holds shape b parts f g) {l : List Nat} (hl : l.length = shape.length) (v : V) :
    ∃ f', f.setByPartition (label2Number width l) v parts = some f' ∧ Holds shape b parts f' (fun c => if SamePartition l c then v else g c) := by
  obtain ⟨h1, h2⟩ := vals_set hb h.len h.vals hl v
  unfold PottsG.setByPartition
  rw [h.shape_eq]
  by_cases c : shape.length ≤ 4
  · rw [if_pos c, place_idx (by omega)]
    simp only
    rw [h1]
    exact ⟨_, rfl, rfl, h.size, by simp [h.len], h2, h.reach, h.cov⟩
  · rw [if_neg c, label2Number_eq (bits_le (by omega)), number2Index_covers (by rw [hl]; exact h.cov (by omega))]
    simp only
    rw [h1]
    exact ⟨_, rfl, rfl, h.size, by simp [h.len], h2, h.reach, h.cov⟩

theorem Holds.setByLabel {shape : List Nat} {b : Nat} {parts : List Nat} {f : PottsG V} {g : List Nat → V} (hN : shape.length ≤ 11)
    (hb : bell[shape.length]? = some b) (h : Holds shape b parts f g) {l : List Nat} (hl : l.length = shape.length) (v : V) :
    ∃ f' parts', f.setByLabel l v parts = .ok f' parts' ∧ Holds shape b parts' f' (fun c => if SamePartition l c then v else g c) := by
  obtain ⟨h1, h2⟩ := vals_set hb h.len h.vals hl v
  unfold PottsG.setByLabel
  rw [h.shape_eq, if_neg (by omega), ← hl, List.take_length]
  by_cases c : l.length ≤ 4
  · rw [if_pos c]
    obtain ⟨f', h3, h4⟩ := h.setByPartition hN hb hl v
    rw [h3]
    exact ⟨_, _, rfl, h4⟩
  · rw [if_neg c]
    obtain ⟨p, h3, h4, h5⟩ := label2Index_idx (l := l) (by omega) h.reach
    rw [h3]
    simp only
    rw [h1]
    exact ⟨_, _, rfl, rfl, h.size, by simp [h.len], h2, h5, fun _ => by rw [← hl]; exact h4⟩

theorem Holds.eval {shape : List Nat} {b : Nat} {parts : List Nat} {f : PottsG V} {g : List Nat → V} (zero : V) (hN : shape.length ≤ 11)
    (h : Holds shape b parts f g) {c : List Nat} (hc : c.length = shape.length) :
    ∃ parts', f.eval zero c parts = .ok (g c) parts' ∧ Holds shape b parts' f g := by
  unfold PottsG.eval
  rw [h.shape_eq, if_neg (by omega), ← hc, List.take_length]
  by_cases c4 : c.length ≤ 4
  · rw [if_pos c4, place_idx c4]
    simp only
    rw [h.vals c hc]
    exact ⟨_, rfl, h⟩
  · rw [if_neg c4]
    obtain ⟨p, h3, h4, h5⟩ := label2Index_idx (l := c) (by omega) h.reach
    rw [h3]
    simp only
    rw [h.vals c hc]
    exact ⟨_, rfl, h.shape_eq, h.size, h.len, h.vals, h5, fun _ => by rw [← hc]; exact h4⟩

/-- Evaluation changes nothing but the static table, for whatever it is called with. -/
theorem Holds.eval_parts {shape : List Nat} {b : Nat} {parts parts' : List Nat} {f : PottsG V} {g : List Nat → V} {zero x : V} {c : List Nat}
    (hN : shape.length ≤ 11) (h : Holds shape b parts f g) (he : f.eval zero c parts = .ok x parts') : Holds shape b parts' f g := by
  have hlen : shape.length ≤ c.length := by
    by_contra hlt
    unfold PottsG.eval at he
    rw [h.shape_eq, if_pos (by omega)] at he
    simp at he
  have htl : (c.take shape.length).length = shape.length := by simp [hlen]
  obtain ⟨p, h1, h2⟩ := h.eval zero hN htl
  have heq : f.eval zero (c.take shape.length) parts = f.eval zero c parts := by
    unfold PottsG.eval
    rw [h.shape_eq, if_neg (show ¬ (c.take shape.length).length < shape.length by omega), if_neg (show ¬ c.length < shape.length by omega),
      List.take_take, Nat.min_self]
  rw [heq, he] at h1
  injection h1 with _ h1
  rw [h1]; exact h2

theorem Holds.other {shape : List Nat} {b : Nat} {parts parts' : List Nat} {f : PottsG V} {g : List Nat → V} {N : Nat} (h : Holds shape b parts f g)
    (hp : buildPartitions width N parts = .ok () parts' ∨ buildPartitions width N parts = .throw parts') : Holds shape b parts' f g := by
  refine ⟨h.shape_eq, h.size, h.len, h.vals, ?_, fun h4 => covers_build (by omega) (h.cov h4) h.reach hp⟩
  rcases hp with hp | hp
  · exact .resize h.reach hp
  · exact .resizeThrow h.reach hp

theorem Built.holds {zero : V} {shape : List Nat} {b : Nat} {parts : List Nat} {f : PottsG V} {g : List Nat → V} (hN : shape.length ≤ 11)
    (hb : bell[shape.length]? = some b) (h : Built zero shape idx parts f g) : Holds shape b parts f g := by
  induction h with
  | make hr hm =>
    obtain ⟨f', p', h1, h2⟩ := make_holds zero hN hb hr
    rw [hm] at h1
    injection h1 with e1 e2
    rw [e1, e2]; exact h2
  | @values parts parts' f vs g hr hm hg =>
    have hlen : b ≤ vs.length := by
      by_contra hlt
      obtain ⟨f', p', h1, h2⟩ := make_holds zero hN hb hr
      unfold makeValues at hm
      rw [h1] at hm
      simp only at hm
      rw [if_neg (by rw [h2.len]; exact hlt)] at hm
      simp at hm
    obtain ⟨f', p', h1, h2⟩ := makeValues_holds zero hN hb hr hlen hg
    rw [hm] at h1
    injection h1 with e1 e2
    rw [e1, e2]; exact h2
  | @setByLabel parts parts' f f' g l v _ hl hs ih =>
    obtain ⟨f'', p', h1, h2⟩ := ih.setByLabel hN hb hl v
    rw [hs] at h1
    injection h1 with e1 e2
    rw [e1, e2]; exact h2
  | @setByPartition parts f f' g l v _ hl hs ih =>
    obtain ⟨f'', h1, h2⟩ := ih.setByPartition hN hb hl v
    rw [hs] at h1
    injection h1 with e1
    rw [e1]; exact h2
  | eval _ he ih => exact ih.eval_parts hN he
  | other _ ho ih => exact ih.other (Or.inl ho)
  | otherThrow _ ho ih => exact ih.other (Or.inr ho)

theorem Holds.generalizedPotts {shape : List Nat} {b : Nat} {parts : List Nat} {f : PottsG V} {g : List Nat → V} (h : Holds shape b parts f g) :
    IsGeneralizedPottsTable shape g := by
  intro c c' hc hc' hs
  have h1 := h.vals c (Walkers.inShape_length hc)
  have h2 := h.vals c' (Walkers.inShape_length hc')
  rw [(idx_eq_iff (by rw [Walkers.inShape_length hc, Walkers.inShape_length hc'])).mpr hs, h2] at h1
  exact (Option.some.inj h1).symm

/-- C60: for up to eleven variables, there is a numbering of the partitions such that, after any history of calls of this object
and of other users of the static tables, the constructors, `setByLabel` and `setByPartition` work as a map from partitions to
values: evaluation yields the value of the partition of the labels, a write changes the value of all labelings with that partition
and of no others, and the object is a generalized Potts function of the shape it was given. -/
theorem C60_pottsG (zero : V) (shape : List Nat) (hN : shape.length ≤ 11) :
    ∃ (b : Nat) (num : List Nat → Nat), bell[shape.length]? = some b ∧ IsNumbering shape.length b num ∧
      (∀ parts, Reachable width parts → ∃ f parts', make zero shape parts = .ok f parts') ∧
      (∀ parts (vs : List V), Reachable width parts → b ≤ vs.length → ∃ f parts', makeValues zero shape vs parts = .ok f parts') ∧
      ∀ parts f g, Built zero shape num parts f g →
        f.shape = shape ∧ f.size = shape.prod ∧
        (∀ c : List Nat, c.length = shape.length → ∃ parts', f.eval zero c parts = .ok (g c) parts') ∧
        (∀ (l : List Nat) (v : V), l.length = shape.length → ∃ f' parts', f.setByLabel l v parts = .ok f' parts') ∧
        (∀ (l : List Nat) (v : V), l.length = shape.length → ∃ f', f.setByPartition (label2Number width l) v parts = some f') ∧
        IsGeneralizedPottsTable shape g := by
  obtain ⟨b, hb⟩ := bell_some hN
  refine ⟨b, idx, hb, isNumbering_idx hN hb, ?_, ?_, ?_⟩
  · intro parts hr
    obtain ⟨f, p, h, _⟩ := make_holds zero hN hb hr
    exact ⟨f, p, h⟩
  · intro parts vs hr hlen
    obtain ⟨f, p, h, h2⟩ := make_holds zero hN hb hr
    unfold makeValues
    rw [h]
    simp only
    rw [if_pos (by rw [h2.len]; exact hlen)]
    exact ⟨_, _, rfl⟩
  · intro parts f g hf
    have h := hf.holds hN hb
    refine ⟨h.shape_eq, h.size, ?_, ?_, ?_, h.generalizedPotts⟩
    · intro c hc
      obtain ⟨p, h1, _⟩ := h.eval zero hN hc
      exact ⟨p, h1⟩
    · intro l v hl
      obtain ⟨f', p, h1, _⟩ := h.setByLabel hN hb hl v
      exact ⟨f', p, h1⟩
    · intro l v hl
      obtain ⟨f', h1, _⟩ := h.setByPartition hN hb hl v
      exact ⟨f', h1⟩

/-- A function with three variables, one partition set: `Built` is inhabited, and evaluation tells the partitions apart. -/
example : ∃ f p, make (0 : Int) [3, 4, 2] [] = .ok f p ∧ ∃ f' p', f.setByLabel [5, 5, 1] 7 p = .ok f' p' ∧
    Built 0 [3, 4, 2] idx p' f' (fun c => if SamePartition [5, 5, 1] c then 7 else 0) ∧ f'.eval 0 [2, 2, 0] p' = .ok 7 p' ∧
    f'.eval 0 [2, 1, 1] p' = .ok 0 p' :=
  ⟨_, _, rfl, _, _, rfl, .setByLabel (.make .init rfl) rfl rfl, rfl, rfl⟩

/-- The answer of `isPotts` in terms of the values, for an object with at least one value. -/
theorem isPotts_iff [DecidableEq V] {f : PottsG V} {b : Nat} (hlen : f.values.length = b) (hb : 1 ≤ b) :
    ∃ r, f.isPotts = some r ∧ (r = true ↔ ∀ i, i < b - 1 → f.values[i]? = f.values[0]?) := by
  unfold isPotts
  cases hv : f.values with
  | nil => rw [hv] at hlen; simp at hlen; omega
  | cons v vs =>
    rw [hv] at hlen
    refine ⟨_, rfl, ?_⟩
    simp only [List.all_eq_true, decide_eq_true_eq]
    constructor
    · intro h i hi
      cases i with
      | zero => rfl
      | succ i =>
        simp only [List.length_cons] at hlen
        have hi' : i < vs.dropLast.length := by simp; omega
        have := h _ (List.getElem_mem hi')
        rw [List.getElem_dropLast] at this
        rw [List.getElem?_cons_succ, List.getElem?_cons_zero, List.getElem?_eq_getElem (by omega), ← this]
    · intro h x hx
      obtain ⟨i, hi, rfl⟩ := List.getElem_of_mem hx
      have hi2 := hi
      simp only [List.length_dropLast] at hi2
      simp only [List.length_cons] at hlen
      have := h (i + 1) (by omega)
      rw [List.getElem?_cons_succ, List.getElem?_cons_zero, List.getElem?_eq_getElem (by omega)] at this
      rw [List.getElem_dropLast]
      exact (Option.some.inj this).symm

/-- C60: what `isPotts` claims holds, and a Potts function is recognised if every variable has at least as many labels as there are
variables. (With fewer labels some partitions do not occur in the table, see `C60_violated_isPotts`.) -/
theorem C60_isPotts_partial [DecidableEq V] (zero : V) (shape : List Nat) (hN : shape.length ≤ 11) :
    ∃ num, IsNumbering shape.length (bell[shape.length]?.getD 0) num ∧ ∀ parts f g, Built zero shape num parts f g →
      ∃ r, f.isPotts = some r ∧ (r = true → IsPottsTable shape g) ∧
        ((∀ n ∈ shape, shape.length ≤ n) → IsPottsTable shape g → r = true) := by
  obtain ⟨b, hb⟩ := bell_some hN
  refine ⟨idx, by rw [hb]; exact isNumbering_idx hN hb, ?_⟩
  intro parts f g hf
  have h := hf.holds hN hb
  have hb1 := bell_pos hb
  obtain ⟨r, h1, h2⟩ := isPotts_iff h.len hb1
  refine ⟨r, h1, ?_, ?_⟩
  · intro hr
    rw [h2] at hr
    obtain ⟨le, hle, hie⟩ := idx_surj hb (n := b - 1) (by omega)
    obtain ⟨ln, hln, hin⟩ := idx_surj hb (n := 0) (by omega)
    refine ⟨g le, g ln, ?_⟩
    intro c hc
    have hcl := Walkers.inShape_length hc
    have hbc : bell[c.length]? = some b := by rw [hcl]; exact hb
    have hv := h.vals c hcl
    constructor
    · intro hall
      have hi := (allEqual_idx hbc).mp hall
      have := h.vals le hle
      rw [hie, ← hi, hv] at this
      exact Option.some.inj this
    · intro hnot
      have hi : idx c ≠ b - 1 := fun he => hnot ((allEqual_idx hbc).mpr he)
      have hlt : idx c < b := idx_lt hbc
      have := h.vals ln hln
      rw [hin, ← hr (idx c) (by omega), hv] at this
      exact Option.some.inj this
  · intro hlab ⟨e, n, hen⟩
    rw [h2]
    have key : ∀ i, i < b - 1 → f.values[i]? = some n := by
      intro i hi
      obtain ⟨l, hl, hli⟩ := idx_surj hb (n := i) (by omega)
      obtain ⟨l', h3, h4⟩ := small_labels l
      have hl' : l'.length = shape.length := by rw [← h3.1, hl]
      have hin : InShape shape l' := by
        rw [Marray.Geometry.inShape_iff]
        refine ⟨hl', ?_⟩
        intro k hk
        have hk1 : k < l'.length := by omega
        rw [List.getD_eq_getElem _ _ hk, List.getD_eq_getElem _ _ hk1]
        have a1 := h4 _ (List.getElem_mem hk1)
        have a2 := hlab _ (List.getElem_mem hk)
        omega
      have hil : idx l' = i := by rw [← (idx_eq_iff h3.1).mpr h3, hli]
      have hnall : ¬ AllEqual l' := by
        rw [allEqual_idx (by rw [hl']; exact hb)]
        omega
      rw [← hil, h.vals l' hl', (hen l' hin).2 hnall]
    intro i hi
    rw [key i hi, key 0 (by omega)]

/-- C60 is violated by `isPotts` for fewer labels: three variables with two labels each, and a value set for the partition into three
classes, which no labeling has. -/
theorem C60_violated_isPotts : ∃ f p f' p' g, make (0 : Int) [2, 2, 2] [] = .ok f p ∧ f.setByLabel [0, 1, 2] 5 p = .ok f' p' ∧
    Built 0 [2, 2, 2] idx p' f' g ∧ IsPottsTable [2, 2, 2] g ∧ f'.isPotts = some false := by
  refine ⟨_, _, _, _, _, rfl, rfl, .setByLabel (l := [0, 1, 2]) (v := 5) (.make .init rfl) rfl rfl, ⟨0, 0, ?_⟩, by decide⟩
  intro c hc
  have : ¬ SamePartition [0, 1, 2] c := by
    rintro ⟨h1, h2⟩
    obtain ⟨a, b, d, rfl⟩ : ∃ a b d, c = [a, b, d] := by
      match c, h1 with
      | [a, b, d], _ => exact ⟨a, b, d, rfl⟩
    have e1 := h2 0 1 (by simp) (by simp)
    have e2 := h2 0 2 (by simp) (by simp)
    have e3 := h2 1 2 (by simp) (by simp)
    simp [InShape] at hc e1 e2 e3
    omega
  simp [this]

/-- C60 is violated by a default-constructed object: `isPotts` reads `values_[0]`, which is not there. -/
theorem C60_violated_default : (default : PottsG Int).isPotts = none := rfl

/-- C60 is violated above eleven variables: the tables of partitions cannot be built (an exception), and from sixteen variables on the
table of Bell numbers is read out of range. -/
theorem C60_violated_order (zero : V) (shape : List Nat) (parts : List Nat) (hr : Reachable width parts) :
    (12 ≤ shape.length → shape.length ≤ 15 → make zero shape parts = .throw parts) ∧ (16 ≤ shape.length → make zero shape parts = .ub) := by
  constructor
  · intro h1 h2
    obtain ⟨b, hb⟩ : ∃ b, bell[shape.length]? = some b := ⟨_, List.getElem?_eq_getElem (by simp [bell]; omega)⟩
    unfold make bellNumber
    rw [hb]
    simp only
    rw [if_neg (by omega)]
    have : width < bits 0 shape.length := lt_of_lt_of_le (by decide : width < bits 0 12) (bits_mono h1)
    rw [build_throw (reachable_good hr) hb this]
  · intro h
    have : bell[shape.length]? = none := by
      rw [List.getElem?_eq_none_iff]
      simpa [bell] using h
    unfold make bellNumber
    rw [this]

end OpenGM.Functions.PottsG
