import Verif.Prelude
import Mathlib.Data.List.Perm.Subperm
import Mathlib.Data.List.Nodup
import Verif.Model.Partition
import Verif.Spec.Equivalence
/-
Invariant of Partition: `rep` maps every element to the root of its tree.
-/
namespace OpenGM.Partition
open Spec

/-- The trees stored in `parents` have roots `rep`; ranks increase strictly towards the root. -/
structure Trees (parents ranks : List Nat) (n : Nat) (rep : Nat → Nat) : Prop where
  plen : parents.length = n
  rlen : ranks.length = n
  parent : ∀ x, x < n → ∃ p, parents[x]? = some p ∧ p < n ∧ rep p = rep x ∧ (p = x → rep x = x) ∧
    (p ≠ x → ∃ rx rp : Nat, ranks[x]? = some rx ∧ ranks[p]? = some rp ∧ rx < rp)
  root : ∀ x, x < n → rep x < n ∧ parents[rep x]? = some (rep x)

structure Inv (P : Partition) (rep : Nat → Nat) : Prop extends Trees P.parents P.ranks P.numberOfElements rep where
  sets : P.numberOfSets = ((List.range P.numberOfElements).filter (fun x => decide (rep x = x))).length

namespace Trees
variable {parents ranks : List Nat} {n : Nat} {rep : Nat → Nat}

theorem rep_rep (h : Trees parents ranks n rep) {x : Nat} (hx : x < n) : rep (rep x) = rep x := by
  obtain ⟨h1, h2⟩ := h.root x hx
  obtain ⟨p, hp, _, _, he, _⟩ := h.parent (rep x) h1
  rw [h2] at hp
  exact he (Option.some.inj hp).symm

theorem parent_self_iff (h : Trees parents ranks n rep) {x p : Nat} (hx : x < n) (hp : parents[x]? = some p) :
    p = x ↔ rep x = x := by
  obtain ⟨p', hp', _, _, he, _⟩ := h.parent x hx
  rw [hp] at hp'
  obtain rfl := Option.some.inj hp'
  refine ⟨he, fun hr => ?_⟩
  have := (h.root x hx).2
  rw [hr, hp] at this
  exact Option.some.inj this

/-- Number of elements of larger rank: the measure for the search loops. -/
def above (ranks : List Nat) (x : Nat) : Nat :=
  match ranks[x]? with
  | some r => (ranks.filter (fun s => decide (r < s))).length
  | none => 0

theorem filter_lt_length (l : List Nat) (p q : Nat → Bool) (hpq : ∀ x, q x = true → p x = true) (y : Nat) (hy : y ∈ l)
    (h1 : p y = true) (h2 : q y = false) : (l.filter q).length < (l.filter p).length := by
  induction l with
  | nil => simp at hy
  | cons a l ih =>
    have hle : ∀ l' : List Nat, (l'.filter q).length ≤ (l'.filter p).length := by
      intro l'
      induction l' with
      | nil => simp
      | cons b l' ih' =>
        rw [List.filter_cons, List.filter_cons]
        by_cases hb : q b = true
        · simp [hb, hpq b hb, ih']
        · by_cases hb' : p b = true
          · simp [hb, hb']; omega
          · simp [hb, hb', ih']
    rw [List.filter_cons, List.filter_cons]
    rcases List.mem_cons.mp hy with rfl | hy
    · simp [h1, h2]
      have := hle l; omega
    · have := ih hy
      by_cases hb : q a = true
      · simp [hb, hpq a hb, this]
      · by_cases hb' : p a = true
        · simp [hb, hb']; omega
        · simp [hb, hb', this]

theorem above_lt (h : Trees parents ranks n rep) {x : Nat} (hx : x < n) : above ranks x < n := by
  have hxr : x < ranks.length := by rw [h.rlen]; exact hx
  unfold above
  rw [List.getElem?_eq_getElem hxr]
  simp only
  have := filter_lt_length ranks (fun _ => true) (fun s => decide (ranks[x] < s)) (by simp) ranks[x]
    (List.getElem_mem hxr) rfl (by simp)
  rw [← h.rlen]
  simpa using this

theorem above_parent (_h : Trees parents ranks n rep) {x p rx rp : Nat}
    (h1 : ranks[x]? = some rx) (h2 : ranks[p]? = some rp) (hlt : rx < rp) : above ranks p < above ranks x := by
  unfold above
  rw [h1, h2]
  simp only
  apply filter_lt_length _ _ _ _ rp (List.mem_of_getElem? h2)
  · simpa using hlt
  · simp
  · intro y hy
    simp only [decide_eq_true_eq] at hy ⊢
    omega

theorem findRoot_spec (h : Trees parents ranks n rep) : ∀ (fuel x : Nat), x < n → above ranks x < fuel →
    findRoot parents fuel x = some (rep x) := by
  intro fuel
  induction fuel with
  | zero => intro x _ hf; omega
  | succ fuel ih =>
    intro x hx hf
    obtain ⟨p, hp, hpn, hrep, _, hne⟩ := h.parent x hx
    unfold findRoot
    rw [hp]
    simp only
    by_cases e : p = x
    · have hr := (h.parent_self_iff hx hp).mp e
      simp [e, hr]
    · obtain ⟨rx, rp, h1, h2, h3⟩ := hne e
      have := h.above_parent h1 h2 h3
      simp only [ne_eq, e, not_false_eq_true, if_true]
      rw [ih p hpn (by omega), hrep]

/-- The rank of a non-root is below the rank of its root. -/
theorem rank_root (h : Trees parents ranks n rep) : ∀ (k x : Nat), x < n → above ranks x < k → rep x ≠ x →
    ∃ rx rr : Nat, ranks[x]? = some rx ∧ ranks[rep x]? = some rr ∧ rx < rr := by
  intro k
  induction k with
  | zero => intro x _ hf; omega
  | succ k ih =>
    intro x hx hf hne
    obtain ⟨p, hp, hpn, hrep, he, hrk⟩ := h.parent x hx
    have hpx : p ≠ x := fun e => hne (he e)
    obtain ⟨rx, rp, h1, h2, h3⟩ := hrk hpx
    have hab := h.above_parent h1 h2 h3
    by_cases hpr : rep p = p
    · exact ⟨rx, rp, h1, by rw [← hrep, hpr]; exact h2, h3⟩
    · obtain ⟨rp', rr, h4, h5, h6⟩ := ih p hpn (by omega) hpr
      rw [h2] at h4
      obtain rfl := Option.some.inj h4
      exact ⟨rx, rr, h1, by rw [← hrep]; exact h5, by omega⟩

/-- Redirecting an element to its root keeps the trees. -/
theorem set_root (h : Trees parents ranks n rep) {x : Nat} (hx : x < n) :
    Trees (parents.set x (rep x)) ranks n rep where
  plen := by simp [h.plen]
  rlen := h.rlen
  parent := by
    intro y hy
    by_cases e : y = x
    · subst e
      refine ⟨rep y, by rw [List.getElem?_set_self (by rw [h.plen]; exact hx)], (h.root y hx).1, h.rep_rep hx, fun e => e,
        fun hne => h.rank_root (above ranks y + 1) y hx (by omega) hne⟩
    · rw [List.getElem?_set_ne (fun h => e h.symm)]
      exact h.parent y hy
  root := by
    intro y hy
    obtain ⟨h1, h2⟩ := h.root y hy
    refine ⟨h1, ?_⟩
    by_cases e : rep y = x
    · subst e
      rw [List.getElem?_set_self (by rw [h.plen]; exact h1), h.rep_rep hy]
    · rw [List.getElem?_set_ne (fun h => e h.symm)]; exact h2

theorem compress_spec (root : Nat) : ∀ (fuel : Nat) (parents : List Nat) (x : Nat), Trees parents ranks n rep → x < n →
    rep x = root → above ranks x < fuel →
    ∃ parents', compress root fuel parents x = some parents' ∧ Trees parents' ranks n rep := by
  intro fuel
  induction fuel with
  | zero => intro _ x _ _ _ hf; omega
  | succ fuel ih =>
    intro parents x h hx hr hf
    unfold compress
    by_cases e : x = root
    · exact ⟨parents, by simp [e], h⟩
    · obtain ⟨p, hp, hpn, hrep, he, hne⟩ := h.parent x hx
      have hpx : p ≠ x := fun e' => e ((he e').symm.trans hr)
      obtain ⟨rx, rp, h1, h2, h3⟩ := hne hpx
      have hab := h.above_parent h1 h2 h3
      have hset := h.set_root hx
      rw [hr] at hset
      obtain ⟨ps, e1, e2⟩ := ih (parents.set x root) p hset hpn (hrep.trans hr) (by omega)
      refine ⟨ps, ?_, e2⟩
      simp only [ne_eq, e, not_false_eq_true, if_true, hp]
      exact e1

end Trees

theorem find_spec {P : Partition} {rep : Nat → Nat} (h : Inv P rep) {x : Nat} (hx : x < P.numberOfElements) :
    ∃ P', P.find x = some (rep x, P') ∧ Inv P' rep ∧ P'.numberOfElements = P.numberOfElements ∧ P'.ranks = P.ranks := by
  have h1 := h.toTrees.findRoot_spec P.parents.length x hx (by rw [h.plen]; exact h.toTrees.above_lt hx)
  obtain ⟨ps, h2, h3⟩ := Trees.compress_spec (rep x) P.parents.length P.parents x h.toTrees hx rfl
    (by rw [h.plen]; exact h.toTrees.above_lt hx)
  refine ⟨{ P with parents := ps }, ?_, ⟨h3, h.sets⟩, rfl, rfl⟩
  simp only [find, h1, h2]

theorem findConst_spec {P : Partition} {rep : Nat → Nat} (h : Inv P rep) {x : Nat} (hx : x < P.numberOfElements) :
    P.findConst x = some (rep x) :=
  h.toTrees.findRoot_spec P.parents.length x hx (by rw [h.plen]; exact h.toTrees.above_lt hx)

/-- Linking root `a` under root `b`. -/
theorem link_spec {P : Partition} {rep : Nat → Nat} (h : Inv P rep) {a b : Nat} (ha : a < P.numberOfElements)
    (hb : b < P.numberOfElements) (hra : rep a = a) (hrb : rep b = b) (hab : a ≠ b) (ranks' : List Nat)
    (hlen : ranks'.length = P.ranks.length)
    (hrank : ∃ ra rb : Nat, ranks'[a]? = some ra ∧ ranks'[b]? = some rb ∧ ra < rb)
    (hmono : ∀ (x p rx rp : Nat), rep x ≠ x → P.ranks[x]? = some rx → P.ranks[p]? = some rp → rx < rp →
      ∃ rx' rp' : Nat, ranks'[x]? = some rx' ∧ ranks'[p]? = some rp' ∧ rx' < rp') :
    Inv { P with parents := P.parents.set a b, ranks := ranks', numberOfSets := P.numberOfSets - 1 }
      (fun x => if rep x = a then b else rep x) where
  plen := by simp [h.plen]
  rlen := by simp only; rw [hlen, h.rlen]
  parent := by
    intro x hx
    simp only at hx ⊢
    by_cases e : x = a
    · subst e
      refine ⟨b, by rw [List.getElem?_set_self (by rw [h.plen]; exact ha)], hb, ?_, ?_, fun _ => hrank⟩
      · simp only [hra, hrb, if_true]
        rw [if_neg (fun h => hab h.symm)]
      · intro e; exact absurd e.symm hab
    · obtain ⟨p, h1, h2, h3, h4, h5⟩ := h.parent x hx
      refine ⟨p, by rw [List.getElem?_set_ne (fun h => e h.symm)]; exact h1, h2, by simp [h3], ?_, ?_⟩
      · intro hp
        have := h4 hp
        rw [this, if_neg e]
      · intro hp
        obtain ⟨rx, rp, q1, q2, q3⟩ := h5 hp
        have hrx : rep x ≠ x := fun hr => hp ((h.toTrees.parent_self_iff hx h1).mpr hr)
        exact hmono x p rx rp hrx q1 q2 q3
  root := by
    intro x hx
    simp only at hx ⊢
    obtain ⟨h1, h2⟩ := h.root x hx
    split
    · refine ⟨hb, ?_⟩
      rw [List.getElem?_set_ne hab]
      have := (h.root b hb).2
      rwa [hrb] at this
    · rename_i e
      exact ⟨h1, by rw [List.getElem?_set_ne (fun h => e h.symm)]; exact h2⟩
  sets := by
    show P.numberOfSets - 1 = _
    rw [h.sets]
    set n := P.numberOfElements
    have hperm : ((List.range n).filter (fun x => decide (rep x = x))).Perm
        (a :: (List.range n).filter (fun x => decide ((if rep x = a then b else rep x) = x))) := by
      rw [List.perm_ext_iff_of_nodup]
      · intro x
        simp only [List.mem_filter, List.mem_range, decide_eq_true_eq, List.mem_cons]
        constructor
        · rintro ⟨h1, h2⟩
          by_cases e : x = a
          · exact Or.inl e
          · right
            exact ⟨h1, by rw [h2, if_neg e]⟩
        · rintro (rfl | ⟨h1, h2⟩)
          · exact ⟨ha, hra⟩
          · refine ⟨h1, ?_⟩
            by_cases e : rep x = a
            · rw [if_pos e] at h2
              rw [← h2, hrb]
            · rwa [if_neg e] at h2
      · exact List.Nodup.filter _ List.nodup_range
      · rw [List.nodup_cons]
        refine ⟨?_, List.Nodup.filter _ List.nodup_range⟩
        simp only [List.mem_filter, List.mem_range, decide_eq_true_eq, not_and]
        intro _
        rw [hra, if_pos rfl]
        exact fun h => hab h.symm
    have := hperm.length_eq
    simp only [List.length_cons] at this
    omega

theorem rank_some {P : Partition} {rep : Nat → Nat} (h : Inv P rep) {x : Nat} (hx : x < P.numberOfElements) :
    ∃ r, P.ranks[x]? = some r := by
  have : x < P.ranks.length := by rw [h.rlen]; exact hx
  exact ⟨_, List.getElem?_eq_getElem this⟩

theorem ite_classes {A B u v : Nat} (hne : A ≠ B) :
    ((if u = A then B else u) = if v = A then B else v) ↔ (u = v ∨ (u = A ∧ v = B) ∨ (u = B ∧ v = A)) := by
  split <;> split <;> omega

/-- `merge` unites the classes of its arguments. -/
theorem merge_spec {P : Partition} {rep : Nat → Nat} (h : Inv P rep) {a b : Nat} (ha : a < P.numberOfElements)
    (hb : b < P.numberOfElements) :
    ∃ P' rep', P.merge a b = some P' ∧ Inv P' rep' ∧ P'.numberOfElements = P.numberOfElements ∧
      ∀ x y, rep' x = rep' y ↔ (rep x = rep y ∨ (rep x = rep a ∧ rep y = rep b) ∨ (rep x = rep b ∧ rep y = rep a)) := by
  obtain ⟨P1, e1, i1, n1, r1⟩ := find_spec h ha
  obtain ⟨P2, e2, i2, n2, r2⟩ := find_spec i1 (x := b) (by rw [n1]; exact hb)
  have hA : rep a < P2.numberOfElements := by rw [n2, n1]; exact (h.root a ha).1
  have hB : rep b < P2.numberOfElements := by rw [n2, n1]; exact (h.root b hb).1
  have hrA := h.toTrees.rep_rep ha
  have hrB := h.toTrees.rep_rep hb
  obtain ⟨ra, hra⟩ := rank_some i2 hA
  obtain ⟨rb, hrb⟩ := rank_some i2 hB
  have hn : P2.numberOfElements = P.numberOfElements := by rw [n2, n1]
  have same : rep a = rep b → ra = rb := by
    intro e; rw [e, hrb] at hra; exact (Option.some.inj hra).symm
  unfold merge
  simp only [e1, e2, hra, hrb]
  by_cases c1 : ra < rb
  · have hne : rep a ≠ rep b := fun e => by have := same e; omega
    refine ⟨_, _, by rw [if_pos c1], link_spec i2 hA hB hrA hrB hne P2.ranks rfl ⟨ra, rb, hra, hrb, c1⟩
      (fun x p rx rp _ q1 q2 q3 => ⟨rx, rp, q1, q2, q3⟩), hn, ?_⟩
    intro x y
    exact ite_classes hne
  · by_cases c2 : ra > rb
    · have hne : rep b ≠ rep a := fun e => by have := same e.symm; omega
      refine ⟨_, _, by rw [if_neg c1, if_pos c2], link_spec i2 hB hA hrB hrA hne P2.ranks rfl ⟨rb, ra, hrb, hra, c2⟩
        (fun x p rx rp _ q1 q2 q3 => ⟨rx, rp, q1, q2, q3⟩), hn, ?_⟩
      intro x y
      rw [ite_classes hne]
      tauto
    · by_cases c3 : rep a = rep b
      · refine ⟨P2, rep, by simp [c1, c2, c3], i2, hn, ?_⟩
        intro x y
        rw [c3]
        constructor
        · exact fun h => Or.inl h
        · rintro (h | ⟨h1, h2⟩ | ⟨h1, h2⟩)
          · exact h
          · rw [h1, h2]
          · rw [h1, h2]
      · have hne : rep b ≠ rep a := fun e => c3 e.symm
        have hlt : rep a < P2.ranks.length := by rw [i2.rlen]; exact hA
        refine ⟨{ P2 with parents := P2.parents.set (rep b) (rep a), ranks := P2.ranks.set (rep a) (ra + 1),
                          numberOfSets := P2.numberOfSets - 1 }, _, by simp [c1, c2, c3],
          link_spec i2 hB hA hrB hrA hne (P2.ranks.set (rep a) (ra + 1)) (by simp) ?_ ?_, hn, ?_⟩
        · refine ⟨rb, ra + 1, ?_, by rw [List.getElem?_set_self hlt], by omega⟩
          rw [List.getElem?_set_ne c3]; exact hrb
        · intro x p rx rp hx q1 q2 q3
          have hxa : rep a ≠ x := by
            rintro rfl; exact hx hrA
          refine ⟨rx, ?_⟩
          by_cases hp : rep a = p
          · subst hp
            rw [hra] at q2
            obtain rfl := Option.some.inj q2
            exact ⟨ra + 1, by rw [List.getElem?_set_ne hxa]; exact q1, by rw [List.getElem?_set_self hlt], by omega⟩
          · exact ⟨rp, by rw [List.getElem?_set_ne hxa]; exact q1, by rw [List.getElem?_set_ne hp]; exact q2, q3⟩
        · intro x y
          rw [ite_classes hne]
          tauto

theorem insert_spec {P : Partition} {rep : Nat → Nat} (h : Inv P rep) (k : Nat) :
    Inv (P.insert k) (fun x => if x < P.numberOfElements then rep x else x) where
  plen := by simp [Partition.insert, h.plen]
  rlen := by simp [Partition.insert, h.rlen]
  parent := by
    intro x hx
    simp only [Partition.insert] at hx ⊢
    by_cases e : x < P.numberOfElements
    · obtain ⟨p, h1, h2, h3, h4, h5⟩ := h.parent x e
      refine ⟨p, by rw [List.getElem?_append_left (by rw [h.plen]; exact e)]; exact h1, by omega, by simp [e, h2, h3],
        by simpa [e] using h4, ?_⟩
      intro hp
      obtain ⟨rx, rp, q1, q2, q3⟩ := h5 hp
      exact ⟨rx, rp, by rw [List.getElem?_append_left (by rw [h.rlen]; exact e)]; exact q1,
        by rw [List.getElem?_append_left (by rw [h.rlen]; exact h2)]; exact q2, q3⟩
    · refine ⟨x, ?_, hx, rfl, by simp [e], by simp⟩
      rw [List.getElem?_append_right (by rw [h.plen]; omega), h.plen, List.getElem?_map,
        List.getElem?_range (by omega)]
      simp only [Option.map_some, Option.some.injEq]
      omega
  root := by
    intro x hx
    simp only [Partition.insert] at hx ⊢
    by_cases e : x < P.numberOfElements
    · obtain ⟨h1, h2⟩ := h.root x e
      simp only [e, if_true]
      exact ⟨by omega, by rw [List.getElem?_append_left (by rw [h.plen]; exact h1)]; exact h2⟩
    · simp only [e, if_false]
      refine ⟨hx, ?_⟩
      rw [List.getElem?_append_right (by rw [h.plen]; omega), h.plen, List.getElem?_map,
        List.getElem?_range (by omega)]
      simp only [Option.map_some, Option.some.injEq]
      omega
  sets := by
    show P.numberOfSets + k = _
    have : (P.insert k).numberOfElements = P.numberOfElements + k := rfl
    rw [this, List.range_add, List.filter_append, List.length_append, h.sets]
    congr 1
    · congr 1
      apply List.filter_congr
      intro x hx
      simp [List.mem_range.mp hx]
    · rw [List.filter_eq_self.mpr]
      · simp
      · intro x hx
        obtain ⟨y, _, rfl⟩ := List.mem_map.mp hx
        simp

theorem ofSize_inv (n : Nat) : Inv (ofSize n) id where
  plen := by simp [ofSize]
  rlen := by simp [ofSize]
  parent := by
    intro x hx
    exact ⟨x, List.getElem?_range hx, hx, rfl, fun _ => rfl, by simp⟩
  root := by
    intro x hx
    exact ⟨hx, List.getElem?_range hx⟩
  sets := by simp [ofSize]

/-! ### histories -/

/-- One call. -/
def step (P : Partition) : PartitionOp → Option Partition
  | .merge a b => P.merge a b
  | .insert k => some (P.insert k)
  | .find a => (P.find a).map (fun r => r.2)

/-- A history of calls. -/
def run : Partition → List PartitionOp → Option Partition
  | P, [] => some P
  | P, op :: ops =>
    match P.step op with
    | none => none
    | some P' => run P' ops

structure Refines (P : Partition) (s : Merged) (rep : Nat → Nat) : Prop extends Inv P rep where
  size : P.numberOfElements = s.n
  equiv : ∀ x y, x < s.n → y < s.n → (rep x = rep y ↔ s.Equiv x y)
  inRange : ∀ p ∈ s.pairs, p.1 < s.n ∧ p.2 < s.n

theorem equiv_outside {s : Merged} (hr : ∀ p ∈ s.pairs, p.1 < s.n ∧ p.2 < s.n) {x y : Nat} (h : s.Equiv x y) :
    x = y ∨ (x < s.n ∧ y < s.n) := by
  induction h with
  | rel x y h => exact Or.inr (hr _ h)
  | refl x => exact Or.inl rfl
  | symm x y _ ih => rcases ih with rfl | ⟨h1, h2⟩; exacts [Or.inl rfl, Or.inr ⟨h2, h1⟩]
  | trans x y z _ _ ih1 ih2 =>
    rcases ih1 with rfl | ⟨h1, h2⟩
    · exact ih2
    · rcases ih2 with rfl | ⟨h3, h4⟩
      · exact Or.inr ⟨h1, h2⟩
      · exact Or.inr ⟨h1, h4⟩

theorem equiv_merge {s : Merged} {a b x y : Nat} :
    (PartitionOp.apply s (.merge a b)).Equiv x y ↔
      s.Equiv x y ∨ (s.Equiv x a ∧ s.Equiv y b) ∨ (s.Equiv x b ∧ s.Equiv y a) := by
  have refl : ∀ z, s.Equiv z z := fun z => Relation.EqvGen.refl z
  have symm : ∀ {z w}, s.Equiv z w → s.Equiv w z := fun h => Relation.EqvGen.symm _ _ h
  have trans : ∀ {z w u}, s.Equiv z w → s.Equiv w u → s.Equiv z u := fun h h' => Relation.EqvGen.trans _ _ _ h h'
  constructor
  · intro h
    induction h with
    | rel x y h =>
      rcases List.mem_append.mp h with h | h
      · exact Or.inl (Relation.EqvGen.rel _ _ h)
      · simp only [List.mem_singleton, Prod.mk.injEq] at h
        obtain ⟨rfl, rfl⟩ := h
        exact Or.inr (Or.inl ⟨refl _, refl _⟩)
    | refl x => exact Or.inl (refl x)
    | symm x y _ ih =>
      rcases ih with h | ⟨h1, h2⟩ | ⟨h1, h2⟩
      · exact Or.inl (symm h)
      · exact Or.inr (Or.inr ⟨h2, h1⟩)
      · exact Or.inr (Or.inl ⟨h2, h1⟩)
    | trans x y z _ _ ih1 ih2 =>
      rcases ih1 with h | ⟨h1, h2⟩ | ⟨h1, h2⟩
      · rcases ih2 with h' | ⟨h3, h4⟩ | ⟨h3, h4⟩
        · exact Or.inl (trans h h')
        · exact Or.inr (Or.inl ⟨trans h h3, h4⟩)
        · exact Or.inr (Or.inr ⟨trans h h3, h4⟩)
      · rcases ih2 with h' | ⟨h3, h4⟩ | ⟨h3, h4⟩
        · exact Or.inr (Or.inl ⟨h1, trans (symm h') h2⟩)
        · exact Or.inr (Or.inl ⟨h1, h4⟩)
        · exact Or.inl (trans h1 (symm h4))
      · rcases ih2 with h' | ⟨h3, h4⟩ | ⟨h3, h4⟩
        · exact Or.inr (Or.inr ⟨h1, trans (symm h') h2⟩)
        · exact Or.inl (trans h1 (symm h4))
        · exact Or.inr (Or.inr ⟨h1, h4⟩)
  · have mono : ∀ {z w}, s.Equiv z w → (PartitionOp.apply s (.merge a b)).Equiv z w := by
      intro z w h
      exact Relation.EqvGen.mono (fun _ _ h => List.mem_append_left _ h) _ _ h
    have hab : (PartitionOp.apply s (.merge a b)).Equiv a b :=
      Relation.EqvGen.rel _ _ (List.mem_append_right _ (by simp))
    rintro (h | ⟨h1, h2⟩ | ⟨h1, h2⟩)
    · exact mono h
    · exact Relation.EqvGen.trans _ _ _ (mono h1) (Relation.EqvGen.trans _ _ _ hab (Relation.EqvGen.symm _ _ (mono h2)))
    · exact Relation.EqvGen.trans _ _ _ (mono h1)
        (Relation.EqvGen.trans _ _ _ (Relation.EqvGen.symm _ _ hab) (Relation.EqvGen.symm _ _ (mono h2)))

theorem step_refines {P : Partition} {s : Merged} {rep : Nat → Nat} (h : Refines P s rep) (op : PartitionOp)
    (hv : op.Valid s) : ∃ P' rep', P.step op = some P' ∧ Refines P' (op.apply s) rep' := by
  cases op with
  | merge a b =>
    obtain ⟨ha, hb⟩ := hv
    obtain ⟨P', rep', e1, e2, e3, e4⟩ := merge_spec h.toInv (by rw [h.size]; exact ha) (by rw [h.size]; exact hb)
    refine ⟨P', rep', e1, e2, by rw [e3]; exact h.size, ?_, ?_⟩
    · intro x y hx hy
      have hx' : x < s.n := hx
      have hy' : y < s.n := hy
      rw [e4, equiv_merge, h.equiv x y hx' hy', h.equiv x a hx' ha, h.equiv y b hy' hb, h.equiv x b hx' hb, h.equiv y a hy' ha]
    · intro p hp
      rcases List.mem_append.mp hp with hp | hp
      · exact h.inRange p hp
      · simp only [List.mem_singleton] at hp; subst hp; exact ⟨ha, hb⟩
  | insert k =>
    refine ⟨P.insert k, _, rfl, insert_spec h.toInv k, ?_, ?_, ?_⟩
    · show P.numberOfElements + k = s.n + k; rw [h.size]
    · intro x y hx hy
      show _ ↔ s.Equiv x y
      rw [h.size]
      by_cases h1 : x < s.n <;> by_cases h2 : y < s.n
      · simp only [h1, h2, if_true]; exact h.equiv x y h1 h2
      · have := (h.root x (by rw [h.size]; exact h1)).1
        rw [h.size] at this
        simp only [h1, h2, if_true, if_false]
        constructor
        · intro e; omega
        · intro e; rcases equiv_outside h.inRange e with rfl | ⟨_, h3⟩
          · exact absurd h1 h2
          · exact absurd h3 h2
      · have := (h.root y (by rw [h.size]; exact h2)).1
        rw [h.size] at this
        simp only [h1, h2, if_true, if_false]
        constructor
        · intro e; omega
        · intro e; rcases equiv_outside h.inRange e with rfl | ⟨h3, _⟩
          · exact absurd h2 h1
          · exact absurd h3 h1
      · simp only [h1, h2, if_false]
        constructor
        · rintro rfl; exact Relation.EqvGen.refl _
        · intro e; rcases equiv_outside h.inRange e with rfl | ⟨h3, _⟩
          · rfl
          · exact absurd h3 h1
    · intro p hp
      have := h.inRange p hp
      show p.1 < s.n + k ∧ p.2 < s.n + k
      omega
  | find a =>
    obtain ⟨P', e1, e2, e3, _⟩ := find_spec h.toInv (x := a) (by rw [h.size]; exact hv)
    exact ⟨P', rep, by simp [step, e1], e2, by rw [e3]; exact h.size, h.equiv, h.inRange⟩

theorem run_refines (ops : List PartitionOp) : ∀ {P : Partition} {s : Merged} {rep : Nat → Nat}, Refines P s rep →
    ValidPartitionHistory s ops →
    ∃ P' rep', P.run ops = some P' ∧ Refines P' (ops.foldl PartitionOp.apply s) rep' := by
  induction ops with
  | nil => intro P s rep h _; exact ⟨P, rep, rfl, h⟩
  | cons op ops ih =>
    intro P s rep h hv
    obtain ⟨P1, rep1, e1, h1⟩ := step_refines h op hv.1
    obtain ⟨P2, rep2, e2, h2⟩ := ih h1 hv.2
    exact ⟨P2, rep2, by simp only [run, e1, e2], h2⟩

theorem ofSize_refines (n : Nat) : Refines (ofSize n) ⟨n, []⟩ id where
  toInv := ofSize_inv n
  size := rfl
  equiv := by
    intro x y _ _
    constructor
    · rintro rfl; exact Relation.EqvGen.refl _
    · intro h
      have hsub : ∀ x y : Nat, (Merged.mk n []).Equiv x y → x = y := by
        intro x y h
        induction h with
        | rel x y h => simp at h
        | refl x => rfl
        | symm x y _ ih => exact ih.symm
        | trans x y z _ _ ih1 ih2 => exact ih1.trans ih2
      exact hsub x y h
  inRange := by simp

theorem representatives_eq {P : Partition} {rep : Nat → Nat} (h : Inv P rep) :
    P.representatives = (List.range P.numberOfElements).filter (fun x => decide (rep x = x)) := by
  unfold representatives
  apply List.filter_congr
  intro x hx
  have hx' := List.mem_range.mp hx
  obtain ⟨p, hp, _⟩ := h.parent x hx'
  rw [hp]
  have := h.toTrees.parent_self_iff hx' hp
  simp only [Option.some.injEq]
  by_cases e : p = x
  · simp [e, this.mp e]
  · have : ¬ rep x = x := fun hr => e (this.mpr hr)
    simp [e, this]

end OpenGM.Partition
