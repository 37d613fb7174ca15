import Verif.Lemmas.DisjointSet
/-
C68: disjoint_set answers queries about the equivalence relation generated by the joins. The specification is `Relation.EqvGen` of the joined pairs
(Verif/Spec/Equivalence.lean).
-/
namespace OpenGM.DisjointSet
open Spec

/-- The calls on a disjoint_set; `size` and `representativeLabeling` also change the trees. -/
inductive Call where
  | join (a b : Nat)
  | find (a : Nat)
  | size (a : Nat)
  | representativeLabeling

/-- One call on the model. -/
def call (d : DSet) : Call → Option DSet
  | .join a b => join d a b
  | .find a => (find d a).map (fun r => r.2)
  | .size a => (size d a).map (fun r => r.2)
  | .representativeLabeling => (representativeLabeling d).map (fun r => r.2)

/-- A history of calls. -/
def run : DSet → List Call → Option DSet
  | d, [] => some d
  | d, c :: cs => (call d c).bind (fun d => run d cs)

/-- The arguments are elements. -/
def Call.Valid (n : Nat) : Call → Prop
  | .join a b => a < n ∧ b < n
  | .find a => a < n
  | .size a => a < n
  | .representativeLabeling => True

/-- The pairs joined by the calls. -/
def joined : List Call → List (Nat × Nat)
  | [] => []
  | .join a b :: cs => (a, b) :: joined cs
  | _ :: cs => joined cs

/-- The elements equivalent to `a` after the calls. -/
def Together (n : Nat) (cs : List Call) : Nat → Nat → Prop := Merged.Equiv ⟨n, joined cs⟩

structure DRefines (d : DSet) (s : Merged) (rep : Nat → Nat) : Prop extends DInv d rep where
  count : d.numberOfElements = s.n
  equiv : ∀ x y, x < s.n → y < s.n → (rep x = rep y ↔ s.Equiv x y)

theorem call_refines {d : DSet} {s : Merged} {rep : Nat → Nat} (h : DRefines d s rep) {c : Call} (hv : c.Valid s.n) :
    ∃ d' rep', call d c = some d' ∧ DRefines d' ⟨s.n, s.pairs ++ joined [c]⟩ rep' := by
  have same : ∀ {d'}, DInv d' rep → d'.numberOfElements = d.numberOfElements → DRefines d' ⟨s.n, s.pairs ++ []⟩ rep := by
    intro d' h1 h2
    exact ⟨h1, by rw [h2]; exact h.count, by simpa using h.equiv⟩
  cases c with
  | join a b =>
    obtain ⟨ha, hb⟩ := hv
    obtain ⟨d', rep', e1, e2, e3, e4⟩ := join_spec h.toDInv (by rw [h.count]; exact ha) (by rw [h.count]; exact hb)
    refine ⟨d', rep', e1, e2, by rw [e3]; exact h.count, ?_⟩
    intro x y hx hy
    have := Partition.equiv_merge (s := s) (a := a) (b := b) (x := x) (y := y)
    rw [e4, h.equiv x y hx hy, h.equiv x a hx ha, h.equiv y b hy hb, h.equiv x b hx hb, h.equiv y a hy ha]
    exact this.symm
  | find a =>
    obtain ⟨d', e1, e2, e3, _⟩ := find_spec h.toDInv (x := a) (by rw [h.count]; exact hv)
    exact ⟨d', rep, by simp [call, e1], same e2 e3⟩
  | size a =>
    obtain ⟨d', e1, e2, e3, _⟩ := find_spec h.toDInv (x := a) (by rw [h.count]; exact hv)
    have hlt : rep a < d'.elements.length := by rw [e2.len, e3]; exact (h.root a (by show a < d.numberOfElements; rw [h.count]; exact hv)).1
    exact ⟨d', rep, by simp [call, size, e1, List.getElem?_eq_getElem hlt], same e2 e3⟩
  | representativeLabeling =>
    obtain ⟨d', e1, e2, e3⟩ := labelLoop_spec (is := List.range d.numberOfElements) (n := 0) h.toDInv (by simp)
    exact ⟨d', rep, by simp [call, representativeLabeling, e1], same e2 e3⟩

theorem run_refines : ∀ (cs : List Call) {d : DSet} {s : Merged} {rep : Nat → Nat}, DRefines d s rep → (∀ c ∈ cs, c.Valid s.n) →
    ∃ d' rep', run d cs = some d' ∧ DRefines d' ⟨s.n, s.pairs ++ joined cs⟩ rep'
  | [], d, s, rep, h, _ => ⟨d, rep, rfl, by simpa [joined] using h⟩
  | c :: cs, d, s, rep, h, hv => by
    obtain ⟨d1, rep1, e1, h1⟩ := call_refines h (hv c List.mem_cons_self)
    obtain ⟨d2, rep2, e2, h2⟩ := run_refines cs h1 (fun c hc => hv c (List.mem_cons_of_mem _ hc))
    refine ⟨d2, rep2, by simp [run, e1, e2], ?_⟩
    have : (s.pairs ++ joined [c]) ++ joined cs = s.pairs ++ joined (c :: cs) := by cases c <;> simp [joined]
    rw [← this]
    exact h2

theorem construct_refines (n : Nat) : DRefines (construct n) ⟨n, []⟩ id := ⟨construct_dinv n, rfl, (Partition.ofSize_refines n).equiv⟩

open Classical in
/-- C68. After any calls with elements as arguments, all of which end and stay in range: `find` gives the same representative for two elements iff they have been joined (directly or through others);
`size` is the number of elements joined with the argument; `numberOfSets` is the number of classes; `representativeLabeling` numbers one representative of each class, those that `find` returns,
from 0 in increasing order. -/
theorem C68_disjointSet (n : Nat) (cs : List Call) (hv : ∀ c ∈ cs, c.Valid n) :
    ∃ (d : DSet) (rep : Nat → Nat), run (construct n) cs = some d ∧
      (∀ a, a < n → (∃ d', find d a = some (rep a, d')) ∧ rep a < n ∧ Together n cs a (rep a) ∧
        ∃ d', size d a = some (((List.range n).filter (fun b => decide (Together n cs a b))).length, d')) ∧
      (∀ a b, a < n → b < n → (rep a = rep b ↔ Together n cs a b)) ∧
      ∃ (reps : List Nat) (d' : DSet), representativeLabeling d = some (reps.zipIdx, d') ∧ reps.Pairwise (· < ·) ∧ (∀ r, r ∈ reps ↔ ∃ a, a < n ∧ rep a = r) ∧ d.numberOfSets = reps.length := by
  obtain ⟨d, rep, e, h⟩ := run_refines cs (construct_refines n) hv
  simp only [List.nil_append] at h
  have hcount : d.numberOfElements = n := h.count
  have hlt : ∀ a, a < n → rep a < n := by
    intro a ha
    have := (h.root a (by show a < d.numberOfElements; rw [hcount]; exact ha)).1
    simpa [toP, hcount] using this
  have hrr : ∀ a, a < n → rep (rep a) = rep a := fun a ha => h.toTrees.rep_rep (by show a < d.numberOfElements; rw [hcount]; exact ha)
  refine ⟨d, rep, e, ?_, fun a b ha hb => h.equiv a b ha hb, ?_⟩
  · intro a ha
    obtain ⟨d', e1, e2, e3, _⟩ := find_spec h.toDInv (x := a) (by rw [hcount]; exact ha)
    refine ⟨⟨d', e1⟩, hlt a ha, ?_, ?_⟩
    · exact (h.equiv a (rep a) ha (hlt a ha)).mp (hrr a ha).symm
    · have hl : rep a < d'.elements.length := by rw [e2.len, e3, hcount]; exact hlt a ha
      refine ⟨d', ?_⟩
      unfold size
      rw [e1]
      simp only
      rw [List.getElem?_eq_getElem hl]
      simp only [Option.some.injEq, Prod.mk.injEq, and_true]
      rw [e2.sizes _ _ (hrr a ha) (List.getElem?_eq_getElem hl), e3, hcount]
      unfold classSize
      congr 1
      apply List.filter_congr
      intro b hb
      have hb := List.mem_range.mp hb
      have := h.equiv a b ha hb
      simp only [decide_eq_decide]
      unfold Together
      rw [← this]
      exact eq_comm
  · obtain ⟨d', e1, e2, e3⟩ := labelLoop_spec (is := List.range d.numberOfElements) (n := 0) h.toDInv (by simp)
    refine ⟨_, d', e1, List.Pairwise.filter _ List.pairwise_lt_range, ?_, h.sets⟩
    intro r
    rw [hcount, List.mem_filter, List.mem_range, decide_eq_true_eq]
    constructor
    · rintro ⟨h1, h2⟩
      exact ⟨r, h1, h2⟩
    · rintro ⟨a, h1, rfl⟩
      exact ⟨hlt a h1, hrr a h1⟩

/-- A history with joins of joined sets, and of sets of equal and different rank. -/
def demo : List Call := [.join 0 1, .join 2 3, .size 1, .join 1 3, .representativeLabeling, .join 4 0, .find 2, .join 3 0]

example : ∀ c ∈ demo, c.Valid 6 := by simp [demo, Call.Valid]

example : ∃ d, run (construct 6) demo = some d ∧ (size d 2).map (fun r => r.1) = some 5 ∧ d.numberOfSets = 2 ∧ (representativeLabeling d).map (fun r => r.1) = some [(3, 0), (5, 1)] :=
  ⟨_, rfl, by decide, by decide, by decide⟩

end OpenGM.DisjointSet
