import Verif.Lemmas.Finalize
import Verif.Spec.Moves
import Mathlib.Data.List.Perm.Basic
/-
Sums of term values over subsets of the terms.
-/
namespace OpenGM
open Spec

variable {V : Type}

/-- All values combined. -/
def total (o : Operation V) (l : List V) : V := l.foldl o.op o.neutral

section
variable {o : Operation V} (ho : o.IsCommMonoid)
include ho

theorem foldl_op (l : List V) (a : V) : l.foldl o.op a = o.op a (total o l) := by
  induction l generalizing a with
  | nil => simp [total, ho.comm a, ho.neutral_left]
  | cons b l ih =>
    simp only [total, List.foldl_cons]
    rw [ih, ih (o.op o.neutral b), ho.neutral_left, ho.assoc]

theorem total_cons (a : V) (l : List V) : total o (a :: l) = o.op a (total o l) := by
  simp only [total, List.foldl_cons]
  rw [foldl_op ho, ho.neutral_left]; rfl

theorem total_append (l l' : List V) : total o (l ++ l') = o.op (total o l) (total o l') := by
  simp only [total, List.foldl_append]
  rw [foldl_op ho]; rfl

theorem total_perm {l l' : List V} (h : l.Perm l') : total o l = total o l' := by
  induction h with
  | nil => rfl
  | cons x _ ih => rw [total_cons ho, total_cons ho, ih]
  | swap x y l => simp only [total_cons ho]; rw [← ho.assoc, ← ho.assoc, ho.comm x y]
  | trans _ _ h1 h2 => rw [h1, h2]

end

/-- Value of term `f` of the problem. -/
def termVal (o : Operation V) (p : Problem V) (x : List Nat) (f : Nat) : V :=
  match p.terms[f]? with
  | some t => t.value x
  | none => o.neutral

theorem energy_eq_total (o : Operation V) (p : Problem V) (x : List Nat) :
    p.energy o x = total o ((List.range p.terms.length).map (termVal o p x)) := by
  unfold Problem.energy total
  congr 1
  apply List.ext_getElem?
  intro i
  simp only [List.getElem?_map]
  by_cases h : i < p.terms.length
  · simp [List.getElem?_range h, termVal, List.getElem?_eq_getElem h]
  · simp [List.getElem?_eq_none (by omega : p.terms.length ≤ i), h]

theorem perm_filter_split (l fs : List Nat) (hl : l.Nodup) (hf : fs.Nodup) (hsub : ∀ f ∈ fs, f ∈ l) :
    l.Perm (l.filter (fun f => decide (f ∉ fs)) ++ fs) := by
  have h1 : l.Perm (l.filter (fun f => decide (f ∉ fs)) ++ l.filter (fun f => decide (f ∈ fs))) := by
    have := List.filter_append_perm (fun f => decide (f ∉ fs)) l
    refine this.symm.trans ?_
    apply List.Perm.of_eq
    congr 2
    funext f; simp
  refine h1.trans (List.Perm.append_left _ ?_)
  rw [List.perm_ext_iff_of_nodup (hl.filter _) hf]
  intro f
  simp only [List.mem_filter, decide_eq_true_eq]
  exact ⟨fun h => h.2, fun h => ⟨hsub f h, h⟩⟩

theorem energy_split {o : Operation V} (ho : o.IsCommMonoid) (p : Problem V) (x fs : List Nat) (hf : fs.Nodup)
    (hsub : ∀ f ∈ fs, f < p.terms.length) :
    p.energy o x =
      o.op (total o (((List.range p.terms.length).filter (fun f => decide (f ∉ fs))).map (termVal o p x)))
        (total o (fs.map (termVal o p x))) := by
  rw [energy_eq_total, ← total_append ho, ← List.map_append]
  apply total_perm ho
  exact (perm_filter_split _ _ List.nodup_range hf (fun f h => List.mem_range.mpr (hsub f h))).map _

theorem mentions_lt {terms : List (Term V)} {v f : Nat} (h : mentions terms v f = true) : f < terms.length := by
  unfold mentions at h
  split at h
  · next t ht => exact (List.getElem?_eq_some_iff.mp ht).1
  · simp at h

theorem termVal_congr (o : Operation V) (p : Problem V) (x y : List Nat) (f : Nat)
    (h : ∀ v, mentions p.terms v f = true → x[v]? = y[v]?) : termVal o p x f = termVal o p y f := by
  unfold termVal
  cases ht : p.terms[f]? with
  | none => rfl
  | some t =>
    simp only [Term.value, restrict]
    congr 1
    apply List.map_congr_left
    intro v hv
    have := h v (by simp [mentions, ht, hv])
    simp [List.getD_eq_getElem?_getD, this]

/-- `fs` is a sorted list of term indices, each of which has a variable, which includes all terms that
mention a variable on which `x` and `y` differ. -/
structure Covers (p : Problem V) (x y fs : List Nat) : Prop where
  sorted : fs.Pairwise (· < ·)
  has : ∀ f ∈ fs, ∃ v, mentions p.terms v f = true
  all : ∀ v f : Nat, x[v]? ≠ y[v]? → mentions p.terms v f = true → f ∈ fs

theorem Covers.split {o : Operation V} (ho : o.IsCommMonoid) {p : Problem V} {x y fs : List Nat} (h : Covers p x y fs) :
    p.energy o y =
      o.op (total o (((List.range p.terms.length).filter (fun f => decide (f ∉ fs))).map (termVal o p x)))
        (total o (fs.map (termVal o p y))) := by
  have hn : fs.Nodup := h.sorted.imp (fun hab => Nat.ne_of_lt hab)
  rw [energy_split ho p y fs hn (fun f hf => by obtain ⟨v, hv⟩ := h.has f hf; exact mentions_lt hv)]
  congr 2
  apply List.map_congr_left
  intro f hf
  apply termVal_congr
  intro v hv
  by_contra hne
  have := h.all v f (fun e => hne e.symm) hv
  simp at hf
  exact hf.2 this

theorem Covers.refl {p : Problem V} {x y fs : List Nat} (h : Covers p x y fs) : Covers p x x fs :=
  ⟨h.sorted, h.has, fun _ _ hne => absurd rfl hne⟩

end OpenGM
