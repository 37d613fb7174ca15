import Verif.Lemmas.Partition
import Verif.Model.DisjointSet
/-
Invariant of disjoint_set: the trees of Partition, and the sizes at the roots.
-/
namespace OpenGM.DisjointSet
open Partition

/-- The same trees as in Partition. -/
def toP (d : DSet) : Partition := ⟨d.elements.map (fun e => e.p), d.elements.map (fun e => e.rank), d.numberOfElements, d.numberOfSets⟩

/-- The number of elements with representative `x`. -/
def classSize (n : Nat) (rep : Nat → Nat) (x : Nat) : Nat := ((List.range n).filter (fun a => decide (rep a = x))).length

structure DInv (d : DSet) (rep : Nat → Nat) : Prop extends Inv (toP d) rep where
  sizes : ∀ x e, rep x = x → d.elements[x]? = some e → e.size = classSize d.numberOfElements rep x

theorem DInv.len {d : DSet} {rep : Nat → Nat} (h : DInv d rep) : d.elements.length = d.numberOfElements := by
  have := h.plen
  simpa [toP] using this

theorem findRoot_eq (es : List Elem) : ∀ (fuel y : Nat), findRoot es fuel y = Partition.findRoot (es.map (fun e => e.p)) fuel y
  | 0, _ => rfl
  | fuel + 1, y => by
    unfold findRoot Partition.findRoot
    rw [List.getElem?_map]
    cases es[y]? with
    | none => rfl
    | some e =>
      simp only [Option.map_some, ne_eq]
      by_cases h : y = e.p
      · rw [if_neg (by simpa using h), if_neg (by simpa using h.symm)]
      · rw [if_pos h, if_pos (fun e => h e.symm), findRoot_eq es fuel]

theorem find_spec {d : DSet} {rep : Nat → Nat} (h : DInv d rep) {x : Nat} (hx : x < d.numberOfElements) :
    ∃ d', find d x = some (rep x, d') ∧ DInv d' rep ∧ d'.numberOfElements = d.numberOfElements ∧ d'.numberOfSets = d.numberOfSets := by
  have hl := h.len
  have hxl : x < d.elements.length := by omega
  have h1 := h.toTrees.findRoot_spec d.elements.length x hx (by rw [hl]; exact h.toTrees.above_lt hx)
  refine ⟨{ d with elements := d.elements.set x { d.elements[x] with p := rep x } }, ?_, ⟨⟨?_, ?_⟩, ?_⟩, rfl, rfl⟩
  · unfold find
    rw [findRoot_eq, show d.elements.map (fun e => e.p) = (toP d).parents from rfl, h1]
    simp only
    rw [List.getElem?_eq_getElem hxl]
  · have h2 := h.toTrees.set_root hx
    simp only [toP, List.map_set]
    have e : (d.elements.map (fun e => e.rank)).set x d.elements[x].rank = d.elements.map (fun e => e.rank) := by
      apply List.ext_getElem?
      intro j
      by_cases hj : x = j
      · subst hj
        rw [List.getElem?_set_self (by simpa using hxl)]
        simp [hxl]
      · rw [List.getElem?_set_ne hj]
    rw [e]
    exact h2
  · exact h.sets
  · intro y e hy he
    simp only at he
    by_cases hj : x = y
    · subst hj
      rw [List.getElem?_set_self hxl] at he
      cases he
      exact h.sizes x d.elements[x] hy (List.getElem?_eq_getElem hxl)
    · rw [List.getElem?_set_ne hj] at he
      exact h.sizes y e hy he

theorem classSize_link {n : Nat} {rep : Nat → Nat} {a b : Nat} (hab : a ≠ b) (x : Nat) :
    classSize n (fun y => if rep y = a then b else rep y) x = if x = b then classSize n rep b + classSize n rep a else if x = a then 0 else classSize n rep x := by
  unfold classSize
  simp only [← List.countP_eq_length_filter]
  induction List.range n with
  | nil => simp
  | cons c l ih =>
    simp only [List.countP_cons, decide_eq_true_eq]
    rw [ih]
    by_cases hxb : x = b
    · subst hxb
      simp only [if_true]
      by_cases h1 : rep c = a
      · simp [h1, hab]; omega
      · by_cases h2 : rep c = x
        · simp [h2, Ne.symm hab]; omega
        · simp [h1, h2]
    · simp only [hxb, if_false]
      by_cases hxa : x = a
      · subst hxa
        simp only [if_true]
        by_cases h1 : rep c = x
        · simp [h1, Ne.symm hab]
        · simp [h1]
      · simp only [hxa, if_false]
        by_cases h1 : rep c = a
        · simp [h1, Ne.symm hxa, Ne.symm hxb]
        · simp [h1]

/-- Linking root `a` under root `b`. -/
theorem link_dinv {d : DSet} {rep : Nat → Nat} (h : DInv d rep) {a b : Nat} (ha : a < d.numberOfElements) (hb : b < d.numberOfElements) (hra : rep a = a) (hrb : rep b = b)
    (hab : a ≠ b) {ea eb eb' : Elem} (hea : d.elements[a]? = some ea) (heb : d.elements[b]? = some eb) (hp : eb'.p = eb.p) (hs : eb'.size = eb.size + ea.size) (hr : eb.rank ≤ eb'.rank)
    (hlt : ea.rank < eb'.rank) :
    DInv { d with elements := (d.elements.set a { ea with p := b }).set b eb', numberOfSets := d.numberOfSets - 1 } (fun x => if rep x = a then b else rep x) := by
  have hl := h.len
  have hal : a < d.elements.length := by omega
  have hbl : b < d.elements.length := by omega
  have hra' : (toP d).ranks[a]? = some ea.rank := by simp [toP, hea]
  have hrb' : (toP d).ranks[b]? = some eb.rank := by simp [toP, heb]
  have hlr : b < (toP d).ranks.length := by simpa [toP] using hbl
  have hinv := link_spec h.toInv ha hb hra hrb hab ((toP d).ranks.set b eb'.rank) (by simp) (by
      refine ⟨ea.rank, eb'.rank, ?_, by rw [List.getElem?_set_self hlr], hlt⟩
      rw [List.getElem?_set_ne (Ne.symm hab)]
      exact hra') (by
      intro x q rx rq hx q1 q2 q3
      have hbx : b ≠ x := by rintro rfl; exact hx hrb
      refine ⟨rx, ?_⟩
      by_cases hq : b = q
      · subst hq
        rw [hrb'] at q2
        cases q2
        exact ⟨eb'.rank, by rw [List.getElem?_set_ne hbx]; exact q1, by rw [List.getElem?_set_self hlr], by omega⟩
      · exact ⟨rq, by rw [List.getElem?_set_ne hbx]; exact q1, by rw [List.getElem?_set_ne hq]; exact q2, q3⟩)
  have e1 : ((d.elements.set a { ea with p := b }).set b eb').map (fun e => e.p) = (d.elements.map (fun e => e.p)).set a b := by
    rw [List.map_set, List.map_set]
    apply List.ext_getElem?
    intro j
    by_cases hj : b = j
    · subst hj
      rw [List.getElem?_set_self (by simpa using hbl), List.getElem?_set_ne hab, List.getElem?_map, heb, hp]
      rfl
    · rw [List.getElem?_set_ne hj]
  have e2 : ((d.elements.set a { ea with p := b }).set b eb').map (fun e => e.rank) = (d.elements.map (fun e => e.rank)).set b eb'.rank := by
    rw [List.map_set, List.map_set]
    congr 1
    apply List.ext_getElem?
    intro j
    by_cases hj : a = j
    · subst hj
      rw [List.getElem?_set_self (by simpa using hal), List.getElem?_map, hea]
      rfl
    · rw [List.getElem?_set_ne hj]
  refine ⟨?_, ?_⟩
  · have : toP { d with elements := (d.elements.set a { ea with p := b }).set b eb', numberOfSets := d.numberOfSets - 1 } =
      { toP d with parents := (toP d).parents.set a b, ranks := (toP d).ranks.set b eb'.rank, numberOfSets := (toP d).numberOfSets - 1 } := by
      simp only [toP, e1, e2]
    rw [this]
    exact hinv
  · intro x e hx he
    simp only at hx he ⊢
    rw [classSize_link hab]
    by_cases hxb : b = x
    · subst hxb
      rw [List.getElem?_set_self (by simpa using hbl)] at he
      cases he
      rw [if_pos rfl, hs, h.sizes _ _ hrb heb, h.sizes _ _ hra hea]
    · have hxa : a ≠ x := by
        rintro rfl
        rw [hra, if_pos rfl] at hx
        exact hxb hx
      rw [List.getElem?_set_ne hxb, List.getElem?_set_ne hxa] at he
      rw [if_neg (Ne.symm hxb), if_neg (Ne.symm hxa)]
      refine h.sizes x e ?_ he
      by_cases hr : rep x = a
      · rw [if_pos hr] at hx
        exact absurd hx hxb
      · rwa [if_neg hr] at hx

theorem join_spec {d : DSet} {rep : Nat → Nat} (h : DInv d rep) {a b : Nat} (ha : a < d.numberOfElements) (hb : b < d.numberOfElements) :
    ∃ d' rep', join d a b = some d' ∧ DInv d' rep' ∧ d'.numberOfElements = d.numberOfElements ∧
      ∀ x y, rep' x = rep' y ↔ (rep x = rep y ∨ (rep x = rep a ∧ rep y = rep b) ∨ (rep x = rep b ∧ rep y = rep a)) := by
  obtain ⟨d1, e1, i1, n1, _⟩ := find_spec h ha
  obtain ⟨d2, e2, i2, n2, _⟩ := find_spec i1 (x := b) (by rw [n1]; exact hb)
  have hA : rep a < d2.numberOfElements := by rw [n2, n1]; exact (h.root a ha).1
  have hB : rep b < d2.numberOfElements := by rw [n2, n1]; exact (h.root b hb).1
  have hrA := h.toTrees.rep_rep ha
  have hrB := h.toTrees.rep_rep hb
  have hl := i2.len
  unfold join
  rw [e1]
  simp only
  rw [e2]
  simp only
  by_cases hne : rep a = rep b
  · rw [if_neg (by simpa using hne)]
    refine ⟨d2, rep, rfl, i2, by rw [n2, n1], ?_⟩
    intro x y
    rw [hne]
    constructor
    · exact Or.inl
    · rintro (h | ⟨h1, h2⟩ | ⟨h1, h2⟩)
      · exact h
      · rw [h1, h2]
      · rw [h1, h2]
  · rw [if_pos hne]
    have gA := List.getElem?_eq_getElem (show rep a < d2.elements.length by omega)
    have gB := List.getElem?_eq_getElem (show rep b < d2.elements.length by omega)
    rw [gA, gB]
    simp only
    split
    · rename_i hgt
      have hdi := link_dinv i2 hB hA hrB hrA (Ne.symm hne) gB gA (eb' := { d2.elements[rep a] with size := d2.elements[rep a].size + d2.elements[rep b].size }) rfl rfl (le_refl _) hgt
      refine ⟨_, _, rfl, hdi, by simp only; rw [n2, n1], ?_⟩
      intro x y
      rw [ite_classes (Ne.symm hne)]
      tauto
    · rename_i hle
      have hdi := link_dinv i2 hA hB hrA hrB hne gA gB
        (eb' := if d2.elements[rep a].rank = d2.elements[rep b].rank then
            (⟨d2.elements[rep b].rank + 1, d2.elements[rep b].p, d2.elements[rep b].size + d2.elements[rep a].size⟩ : Elem)
          else { d2.elements[rep b] with size := d2.elements[rep b].size + d2.elements[rep a].size }) (by split <;> rfl) (by split <;> rfl) (by split <;> simp) (by
          split
          · simp only; omega
          · simp only; omega)
      refine ⟨_, _, rfl, hdi, by simp only; rw [n2, n1], ?_⟩
      intro x y
      rw [ite_classes hne]

theorem construct_dinv (n : Nat) : DInv (construct n) id where
  toInv := by
    have : toP (construct n) = ofSize n := by simp [toP, construct, ofSize, Function.comp_def, List.map_const']
    rw [this]
    exact ofSize_inv n
  sizes := by
    intro x e _ he
    have hx : x < n := by
      have := (List.getElem?_eq_some_iff.mp he).1
      simpa [construct] using this
    simp only [construct, List.getElem?_map, List.getElem?_range hx, Option.map_some, Option.some.injEq] at he
    subst he
    simp only [construct, classSize, id]
    have : (List.range n).filter (fun a => decide (a = x)) = [x] := by
      have h1 := List.nodup_range (n := n)
      have h2 : x ∈ List.range n := List.mem_range.mpr hx
      rw [List.filter_congr (q := (· == x)) (by intro a _; rw [Bool.eq_iff_iff]; simp)]
      rw [List.filter_beq, List.count_eq_one_of_mem h1 h2]
      rfl
    rw [this]; rfl

theorem labelLoop_spec : ∀ {is : List Nat} {n : Nat} {d : DSet} {rep : Nat → Nat}, DInv d rep → (∀ i ∈ is, i < d.numberOfElements) →
    ∃ d', labelLoop is n d = some ((is.filter (fun i => decide (rep i = i))).zipIdx n, d') ∧ DInv d' rep ∧ d'.numberOfElements = d.numberOfElements
  | [], n, d, rep, h, _ => ⟨d, rfl, h, rfl⟩
  | i :: is, n, d, rep, h, hr => by
    obtain ⟨d1, e1, i1, n1, _⟩ := find_spec h (hr i List.mem_cons_self)
    unfold labelLoop
    rw [e1]
    simp only
    by_cases hi : i = rep i
    · rw [if_pos hi]
      obtain ⟨d2, e2, i2, n2⟩ := labelLoop_spec (is := is) (n := n + 1) i1 (fun j hj => by rw [n1]; exact hr j (List.mem_cons_of_mem _ hj))
      rw [e2]
      simp only
      refine ⟨d2, ?_, i2, by rw [n2, n1]⟩
      rw [List.filter_cons, if_pos (by simpa using hi.symm), List.zipIdx_cons]
    · rw [if_neg hi]
      obtain ⟨d2, e2, i2, n2⟩ := labelLoop_spec (is := is) (n := n) i1 (fun j hj => by rw [n1]; exact hr j (List.mem_cons_of_mem _ hj))
      refine ⟨d2, ?_, i2, by rw [n2, n1]⟩
      rw [List.filter_cons, if_neg (by simpa using fun e : rep i = i => hi e.symm)]
      exact e2

end OpenGM.DisjointSet
