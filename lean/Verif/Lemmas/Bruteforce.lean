import Verif.Model.Bruteforce
import Verif.Lemmas.ICM
/-
Lemmas about the model of Bruteforce.
-/
namespace OpenGM
open Spec
variable {V : Type}
namespace Bruteforce
open Movemaker (Tracks)

theorem zeroPrefix_spec (pre t : List Nat) : zeroPrefix pre.length (pre ++ t) = List.replicate pre.length 0 ++ t := by
  have key : ∀ (k : Nat), k ≤ pre.length → (List.range k).foldl (fun s k => s.set k 0) (pre ++ t) = List.replicate k 0 ++ (pre.drop k ++ t) := by
    intro k
    induction k with
    | zero => simp
    | succ k ih =>
      intro hk
      rw [List.range_succ, List.foldl_append, ih (by omega)]
      simp only [List.foldl_cons, List.foldl_nil]
      rw [List.set_append_right _ _ (by simp)]
      simp only [List.length_replicate, Nat.sub_self]
      rw [List.drop_eq_getElem_cons (by omega : k < pre.length), List.cons_append, List.set_cons_zero]
      rw [List.replicate_succ']
      simp
  have := key pre.length le_rfl
  rw [zeroPrefix, this]
  simp

theorem increment_aux : ∀ (shape t preN pre : List Nat), pre.length = preN.length → t.length = shape.length →
    increment (preN ++ shape) (pre ++ t) (List.range' pre.length t.length) =
      some ((odoNext shape t).map (fun u => List.replicate pre.length 0 ++ u))
  | [], [], _, _, _, _ => by simp [increment, odoNext]
  | [], _ :: _, _, _, _, h => by simp at h
  | _ :: _, [], _, _, _, h => by simp at h
  | n :: shape, d :: t, preN, pre, hp, hl => by
    rw [List.length_cons, List.range'_succ]
    unfold increment
    have h1 : (pre ++ d :: t)[pre.length]? = some d := by simp
    have h2 : (preN ++ n :: shape)[pre.length]? = some n := by rw [hp]; simp
    rw [h1, h2]
    simp only [odoNext]
    by_cases hd : d + 1 < n
    · rw [if_pos hd, if_pos hd]
      rw [List.set_append_right _ _ (by simp)]
      simp [zeroPrefix_spec]
    · rw [if_neg hd, if_neg hd]
      have := increment_aux shape t (preN ++ [n]) (pre ++ [d]) (by simp [hp]) (by simpa using hl)
      simp only [List.length_append, List.length_cons, List.length_nil, List.append_assoc, List.cons_append, List.nil_append] at this
      rw [this]
      simp only [Option.map_map, Option.some.injEq]
      congr 1
      funext u
      simp [List.replicate_succ']

theorem increment_spec (nl t : List Nat) (h : t.length = nl.length) :
    increment nl t (List.range nl.length) = some (odoNext nl t) := by
  have := increment_aux nl t [] [] rfl h
  rw [List.range_eq_range', ← h]
  simpa using this

theorem fill_range (x s : List Nat) (h : s.length = x.length) : fill x (List.range x.length) s = s := by
  apply relabelled_unique (x := x) (vars := List.range x.length) (ds := s) (by simpa using h)
    (fill_relabelled x _ s List.nodup_range (fun v hv => List.mem_range.mp hv))
  refine ⟨h, ?_, ?_⟩
  · intro i v l h1 h2
    have : i < x.length := by
      have := (List.getElem?_eq_some_iff.mp h1).1
      simpa using this
    rw [List.getElem?_range this] at h1
    cases h1
    exact h2
  · intro v hv
    have : x.length ≤ v := by simpa using hv
    rw [List.getElem?_eq_none this, List.getElem?_eq_none (by omega)]

/-- One iteration: keep the better labeling. -/
def bfStep (o : InvOperation V) (bop : V → V → Bool) (accOp : V → V → V) (p : Problem V) (s : V × List Nat) (c : List Nat) :
    V × List Nat :=
  (accOp (p.energy o.toOperation c) s.1, if bop (p.energy o.toOperation c) s.1 then c else s.2)

theorem loop_chain {o : InvOperation V} {p : Problem V} (multiplier : Bool) (ho : multiplier = true ∨ o.Laws)
    (bop : V → V → Bool) (accOp : V → V → V) : ∀ (l : List (List Nat)) (t : List Nat) (fuel : Nat) (b : Bf V) (x : List Nat)
    (visited : List (List Nat)), Tracks o b.m p x → (∀ c ∈ t :: l, p.Labeling c) →
    List.IsChain (fun a b => odoNext p.numLabels a = some b) (t :: l) →
    (∀ u, (t :: l).getLast? = some u → odoNext p.numLabels u = none) → l.length < fuel →
    ∃ m' x', loop o multiplier bop accOp (List.range p.numLabels.length) fuel t b visited =
      some (⟨m', ((t :: l).foldl (bfStep o bop accOp p) (b.energy, b.states)).2,
        ((t :: l).foldl (bfStep o bop accOp p) (b.energy, b.states)).1⟩, visited ++ (t :: l)) ∧ Tracks o m' p x' ∧ m'.gm = b.m.gm
  | l, t, 0, _, _, _, _, _, _, _, h => by simp at h
  | l, t, fuel + 1, b, x, visited, ht, hlab, hc, hlast, hf => by
    have hlt := hlab t (by simp)
    have hir : InRange p.numLabels (List.range p.numLabels.length) t := by
      refine ⟨by simpa using hlt.1, ?_⟩
      intro i v l n h1 h2 h3
      have hi : i < p.numLabels.length := by
        have := (List.getElem?_eq_some_iff.mp h1).1
        simpa using this
      rw [List.getElem?_range hi] at h1
      cases h1
      exact hlt.2 i l n h2 h3
    obtain ⟨m', e1, e2, e3⟩ := Movemaker.move_spec multiplier ho ht (List.range p.numLabels.length) t List.nodup_range
      (fun v hv => List.mem_range.mp hv) hir
    have hfill : fill x (List.range p.numLabels.length) t = t := by
      rw [← ht.labeling.1]
      exact fill_range x t (by rw [hlt.1, ht.labeling.1])
    rw [hfill] at e1 e2
    unfold loop
    rw [e1]
    simp only
    rw [ht.stores.labels, increment_spec p.numLabels t hlt.1, e2.state]
    cases l with
    | nil =>
      rw [hlast t (by simp)]
      exact ⟨m', t, rfl, e2, e3⟩
    | cons u l =>
      rw [List.isChain_cons_cons] at hc
      rw [hc.1]
      simp only
      obtain ⟨m'', x'', a1, a2, a3⟩ := loop_chain multiplier ho bop accOp l u fuel
        ⟨m', if bop (p.energy o.toOperation t) b.energy then t else b.states, accOp (p.energy o.toOperation t) b.energy⟩ t
        (visited ++ [t]) e2 (fun c hc => hlab c (by simp at hc ⊢; tauto)) hc.2 (fun w hw => hlast w (by simpa using hw)) (by simp at hf; omega)
      refine ⟨m'', x'', ?_, a2, a3.trans e3⟩
      rw [a1]
      simp [bfStep]

/-- Invariant of the search for the best labeling. -/
theorem bf_best {o : InvOperation V} {p : Problem V} {bop : V → V → Bool} (hso : StrictOrder bop) (accOp : V → V → V)
    (hacc : ∀ a b, accOp a b = if bop a b then a else b) (n0 : V) : ∀ (l : List (List Nat)) (s : V × List Nat) (done : List (List Nat)),
    (∀ c ∈ done, bop (p.energy o.toOperation c) s.1 = false) →
    (s.1 = n0 ∨ bop s.1 n0 = true ∧ s.2 ∈ done ∧ s.1 = p.energy o.toOperation s.2) →
    (∀ c ∈ done ++ l, bop (p.energy o.toOperation c) (l.foldl (bfStep o bop accOp p) s).1 = false) ∧
    ((l.foldl (bfStep o bop accOp p) s).1 = n0 ∨ bop (l.foldl (bfStep o bop accOp p) s).1 n0 = true ∧
      (l.foldl (bfStep o bop accOp p) s).2 ∈ done ++ l ∧
      (l.foldl (bfStep o bop accOp p) s).1 = p.energy o.toOperation (l.foldl (bfStep o bop accOp p) s).2)
  | [], s, done, h1, h2 => by simpa using ⟨h1, h2⟩
  | c :: l, s, done, h1, h2 => by
    have key := bf_best hso accOp hacc n0 l (bfStep o bop accOp p s c) (done ++ [c])
      (by
        intro d hd
        unfold bfStep
        simp only [List.mem_append, List.mem_singleton, hacc] at hd ⊢
        by_cases hb : bop (p.energy o.toOperation c) s.1 = true
        · rw [if_pos hb]
          rcases hd with hd | rfl
          · by_contra hcon
            have := hso.trans _ _ _ (by simpa using hcon) hb
            rw [h1 d hd] at this; simp at this
          · exact hso.irrefl _
        · rw [if_neg hb]
          rcases hd with hd | rfl
          · exact h1 d hd
          · simpa using hb)
      (by
        unfold bfStep
        simp only [hacc]
        by_cases hb : bop (p.energy o.toOperation c) s.1 = true
        · simp only [if_pos hb]
          refine Or.inr ⟨?_, by simp, by simp⟩
          rcases h2 with h2 | h2
          · rw [← h2]; exact hb
          · exact hso.trans _ _ _ hb h2.1
        · simp only [if_neg hb]
          rcases h2 with h2 | ⟨h2, h3, h4⟩
          · exact Or.inl h2
          · exact Or.inr ⟨h2, by simp [h3], h4⟩)
    simpa using key

end Bruteforce
end OpenGM
