import Verif.Model.AStar
import Verif.Spec.Moves
import Verif.Spec.Distance
import Mathlib.Data.List.Perm.Basic
import Mathlib.Data.List.Nodup
import Mathlib.Algebra.BigOperators.Group.List.Basic
/-
Lemmas for A*: the search with any heuristic that never overestimates and is exact on complete configurations.
-/
namespace OpenGM
namespace AStar
open Spec
variable {V : Type}

/-- Heads of heaps are best. -/
theorem heap_front {α : Type} {comp : α → α → Bool} (irr : ∀ a, comp a a = false) (neg : ∀ a b c, comp a b = false → comp b c = false → comp a c = false)
    {x : α} {l : List α} (h : IsHeap comp (x :: l)) : ∀ (i : Nat) (y : α), (x :: l)[i]? = some y → comp x y = false := by
  intro i
  induction i using Nat.strongRecOn with
  | _ i ih =>
    intro y hy
    by_cases h0 : i = 0
    · subst h0
      simp only [List.getElem?_cons_zero, Option.some.injEq] at hy
      subst hy
      exact irr _
    · have hlt : i < (x :: l).length := (List.getElem?_eq_some_iff.mp hy).1
      have hp : (i - 1) / 2 < i := by omega
      have hpl : (i - 1) / 2 < (x :: l).length := by omega
      exact neg _ _ _ (ih _ hp _ (List.getElem?_eq_getElem hpl)) (h i _ _ (by omega) (List.getElem?_eq_getElem hpl) hy)

theorem heap_front_mem {α : Type} {comp : α → α → Bool} (irr : ∀ a, comp a a = false) (neg : ∀ a b c, comp a b = false → comp b c = false → comp a c = false)
    {x : α} {l : List α} (h : IsHeap comp (x :: l)) {y : α} (hy : y ∈ x :: l) : comp x y = false := by
  obtain ⟨i, hi, rfl⟩ := List.getElem_of_mem hy
  exact heap_front irr neg h i _ (List.getElem?_eq_getElem hi)

/-- The order of the values. -/
structure Order (bop : V → V → Bool) : Prop where
  strict : StrictOrder bop
  comparable : Comparable bop

theorem Order.neg {bop : V → V → Bool} (h : Order bop) {a b c : V} (h1 : bop b a = false) (h2 : bop c b = false) : bop c a = false := by
  cases hc : bop c a with
  | false => rfl
  | true =>
    rcases h.comparable c b a hc with h3 | h3
    · rw [h2] at h3; cases h3
    · rw [h1] at h3; cases h3

theorem Order.best {e : Env V} (h : Order e.bop) {x : Node V} {l : List (Node V)} (hh : IsHeap e.comp (x :: l)) {y : Node V} (hy : y ∈ x :: l) :
    e.bop y.value x.value = false :=
  heap_front_mem (comp := e.comp) (fun _ => h.strict.irrefl _) (fun a b c h1 h2 => by
    unfold Env.comp at *
    exact h.neg h1 h2) hh hy

/-- The labels of a labeling in the order in which the variables are fixed. -/
abbrev enc (order z : List Nat) : List Nat := restrict z order

theorem enc_get {order z : List Nat} {i v : Nat} (h : order[i]? = some v) : (enc order z)[i]? = some (z.getD v 0) := by
  simp [enc, restrict, List.getElem?_map, h]

theorem enc_injective {p : Problem V} {order : List Nat} (ho : order.Perm (List.range p.numLabels.length)) {z z' : List Nat} (hz : p.Labeling z)
    (hz' : p.Labeling z') (h : enc order z = enc order z') : z = z' := by
  apply List.ext_getElem?
  intro v
  by_cases hv : v < p.numLabels.length
  · obtain ⟨i, hi, hiv⟩ := List.getElem_of_mem (ho.mem_iff.mpr (List.mem_range.mpr hv))
    have h1 : order[i]? = some v := by rw [List.getElem?_eq_getElem hi, hiv]
    have h2 := enc_get (z := z) h1
    rw [h, enc_get h1] at h2
    have a1 : v < z.length := by rw [hz.1]; exact hv
    have a2 : v < z'.length := by rw [hz'.1]; exact hv
    simp only [List.getD_eq_getElem?_getD, List.getElem?_eq_getElem a1, List.getElem?_eq_getElem a2, Option.getD_some, Option.some.injEq] at h2
    rw [List.getElem?_eq_getElem a1, List.getElem?_eq_getElem a2, h2]
  · rw [List.getElem?_eq_none (by rw [hz.1]; omega), List.getElem?_eq_none (by rw [hz'.1]; omega)]

/-- A heuristic that never overestimates `val` and is exact on complete configurations. -/
def Admissible (e : Env V) (s : Solver V) (p : Problem V) (val : List Nat → V) : Prop :=
  ∀ z conf, p.Labeling z → conf <+: enc s.para.nodeOrder z → conf.length < p.numLabels.length →
    ∃ bs next n, heuristic e s conf = some bs ∧ s.para.nodeOrder[conf.length]? = some next ∧ p.numLabels[next]? = some n ∧ bs.length = n ∧
      ∀ (j : Nat) (b : V) (z' : List Nat), bs[j]? = some b → p.Labeling z' → (conf ++ [j]) <+: enc s.para.nodeOrder z' →
        e.bop (val z') b = false ∧ (conf.length + 1 = p.numLabels.length → b = val z')

/-- The context of a search. -/
structure Ctx (e : Env V) (s : Solver V) (p : Problem V) (val : List Nat → V) : Prop where
  order : Order e.bop
  heap : e.heap.Correct e.comp
  labels : s.gm.numLabels = p.numLabels
  perm : s.para.nodeOrder.Perm (List.range p.numLabels.length)
  positive : ∀ n ∈ p.numLabels, 0 < n
  adm : Admissible e s p val

/-- The labelings `xs` are the best ones, in order. -/
structure Best (bop : V → V → Bool) (p : Problem V) (val : List Nat → V) (xs : List (List Nat)) : Prop where
  labeling : ∀ x ∈ xs, p.Labeling x
  nodup : xs.Nodup
  sorted : xs.Pairwise (fun x y => bop (val y) (val x) = false)
  best : ∀ x ∈ xs, ∀ z, p.Labeling z → z ∉ xs → bop (val z) (val x) = false

/-- The part of the invariant that does not depend on the arrangement of the heap. -/
structure Core (e : Env V) (s : Solver V) (p : Problem V) (val : List Nat → V) (array : List (Node V)) (found : List (List Nat)) : Prop where
  valid : ∀ a ∈ array, ∃ z, p.Labeling z ∧ a.conf <+: enc s.para.nodeOrder z
  cover : ∀ z, p.Labeling z → z ∈ found ∨ ∃ a ∈ array, a.conf <+: enc s.para.nodeOrder z
  apart : array.Pairwise (fun a b => ¬ a.conf <+: b.conf ∧ ¬ b.conf <+: a.conf)
  fresh : ∀ x ∈ found, ∀ a ∈ array, ¬ a.conf <+: enc s.para.nodeOrder x
  bound : ∀ a ∈ array, a.conf ≠ [] → ∀ z, p.Labeling z → a.conf <+: enc s.para.nodeOrder z →
    e.bop (val z) a.value = false ∧ (a.conf.length = p.numLabels.length → a.value = val z)
  best : Best e.bop p val found

variable {e : Env V} {s : Solver V} {p : Problem V} {val : List Nat → V}

theorem Core.perm {array array' : List (Node V)} {found : List (List Nat)} (h : Core e s p val array found) (hp : array'.Perm array) :
    Core e s p val array' found where
  valid a ha := h.valid a (hp.mem_iff.mp ha)
  cover z hz := (h.cover z hz).imp_right (fun ⟨a, ha, h1⟩ => ⟨a, hp.mem_iff.mpr ha, h1⟩)
  apart := (List.Perm.pairwise_iff (fun {_ _} h => ⟨h.2, h.1⟩) hp).mpr h.apart
  fresh x hx a ha := h.fresh x hx a (hp.mem_iff.mp ha)
  bound a ha := h.bound a (hp.mem_iff.mp ha)
  best := h.best

/-- Number of labels of the variables that are open after `k` variables are fixed. -/
def openLabels (s : Solver V) (k : Nat) : List Nat := (s.para.nodeOrder.drop k).map (fun v => (s.gm.numLabels[v]?).elim 0 id)

theorem openLabels_cons {k next n : Nat} (h1 : s.para.nodeOrder[k]? = some next) (h2 : s.gm.numLabels[next]? = some n) :
    openLabels s k = n :: openLabels s (k + 1) := by
  obtain ⟨hk, rfl⟩ := List.getElem?_eq_some_iff.mp h1
  unfold openLabels
  rw [List.drop_eq_getElem_cons hk, List.map_cons, h2]
  rfl

/-- A weight of the nodes on the heap. -/
def weight (s : Solver V) (g : List Nat → Nat) (array : List (Node V)) : Nat := (array.map (fun a => g (openLabels s a.conf.length))).sum

theorem weight_perm {g : List Nat → Nat} {a b : List (Node V)} (h : a.Perm b) : weight s g a = weight s g b := (h.map _).sum_nat

theorem weight_append (g : List Nat → Nat) (a b : List (Node V)) : weight s g (a ++ b) = weight s g a + weight s g b := by
  simp [weight]

theorem weight_cons (g : List Nat → Nat) (a : Node V) (b : List (Node V)) : weight s g (a :: b) = g (openLabels s a.conf.length) + weight s g b := by
  simp [weight]

theorem fuel_eq (array : List (Node V)) : fuel s array = weight s treeSize array := by
  unfold fuel weight openLabels
  rw [List.sum_eq_foldl]

/-- The nodes that expand pushes. -/
def children (zero : V) (conf : List Nat) (bs : List V) (js : List Nat) : List (Node V) := js.map (fun j => ⟨conf ++ [j], bs.getD j zero⟩)

theorem pushLabels_spec (hh : e.heap.Correct e.comp) (conf : List Nat) (bs : List V) : ∀ (js : List Nat) (array : List (Node V)),
    (∀ j ∈ js, j < bs.length) → IsHeap e.comp array →
    ∃ array', pushLabels e conf bs js array = some array' ∧ IsHeap e.comp array' ∧ array'.Perm (array ++ children e.zero conf bs js)
  | [], array, _, ha => ⟨array, rfl, ha, by simp [children]⟩
  | j :: js, array, hj, ha => by
    have h1 := hj j (by simp)
    unfold pushLabels
    rw [List.getElem?_eq_getElem h1]
    simp only
    obtain ⟨g1, g2⟩ := hh.push array ⟨conf ++ [j], bs[j]⟩ ha
    obtain ⟨array', k1, k2, k3⟩ := pushLabels_spec hh conf bs js _ (fun i hi => hj i (by simp [hi])) g1
    refine ⟨array', k1, k2, k3.trans ?_⟩
    refine (List.Perm.append_right _ g2).trans ?_
    rw [List.append_assoc]
    simp [children, List.getD_eq_getElem?_getD, List.getElem?_eq_getElem h1]

theorem prefix_concat {l l' : List Nat} {j : Nat} (h : l <+: l') (hj : l'[l.length]? = some j) : (l ++ [j]) <+: l' := by
  obtain ⟨t, rfl⟩ := h
  rw [List.getElem?_append_right (Nat.le_refl _), Nat.sub_self] at hj
  cases t with
  | nil => simp at hj
  | cons a t =>
    simp only [List.getElem?_cons_zero, Option.some.injEq] at hj
    subst hj
    exact ⟨t, by simp⟩

theorem prefix_of_concat {l l' : List Nat} {j : Nat} (h : (l ++ [j]) <+: l') : l <+: l' := (List.prefix_append _ _).trans h

theorem concat_prefix_get {l l' : List Nat} {j : Nat} (h : (l ++ [j]) <+: l') : l'[l.length]? = some j := by
  obtain ⟨t, rfl⟩ := h
  simp

theorem prefix_total {a b c : List Nat} (h1 : a <+: c) (h2 : b <+: c) : a <+: b ∨ b <+: a := by
  rcases Nat.le_total a.length b.length with h | h
  · exact Or.inl (List.prefix_of_prefix_length_le h1 h2 h)
  · exact Or.inr (List.prefix_of_prefix_length_le h2 h1 h)

theorem enc_length (hc : Ctx e s p val) (z : List Nat) : (enc s.para.nodeOrder z).length = p.numLabels.length := by
  have := hc.perm.length_eq
  simpa [enc, restrict] using this

theorem labeling_set {z : List Nat} {v j n : Nat} (hz : p.Labeling z) (hv : p.numLabels[v]? = some n) (hj : j < n) : p.Labeling (z.set v j) := by
  refine ⟨by simpa using hz.1, fun w l m hw hm => ?_⟩
  by_cases hwv : w = v
  · subst hwv
    rw [List.getElem?_set] at hw
    rw [hv] at hm
    cases hm
    split at hw
    · split at hw
      · cases hw; exact hj
      · cases hw
    · exact hz.2 w l _ hw hv
  · rw [List.getElem?_set_ne (fun h => hwv h.symm)] at hw
    exact hz.2 w l m hw hm

/-- Relabelling the next variable. -/
theorem enc_set (hc : Ctx e s p val) {z conf : List Nat} {next n j : Nat} (hz : p.Labeling z) (hpre : conf <+: enc s.para.nodeOrder z)
    (hnext : s.para.nodeOrder[conf.length]? = some next) (hn : p.numLabels[next]? = some n) :
    (conf ++ [j]) <+: enc s.para.nodeOrder (z.set next j) := by
  have hnd : s.para.nodeOrder.Nodup := hc.perm.nodup_iff.mpr List.nodup_range
  have hlt : next < z.length := by rw [hz.1]; exact (List.getElem?_eq_some_iff.mp hn).1
  obtain ⟨hk, hk'⟩ := List.getElem?_eq_some_iff.mp hnext
  apply prefix_concat
  · obtain ⟨t, ht⟩ := hpre
    refine List.prefix_iff_getElem?.mpr (fun i hi => ?_)
    have hi' : i < s.para.nodeOrder.length := by omega
    have hne : s.para.nodeOrder[i] ≠ next := by
      intro h
      rw [← hk'] at h
      have := (List.Nodup.getElem_inj_iff hnd).mp h
      omega
    rw [enc_get (List.getElem?_eq_getElem hi')]
    have h1 := enc_get (z := z) (List.getElem?_eq_getElem hi')
    rw [← ht, List.getElem?_append_left hi, List.getElem?_eq_getElem hi] at h1
    rw [h1]
    simp only [List.getD_eq_getElem?_getD]
    rw [List.getElem?_set_ne (fun h => hne h.symm)]
  · rw [enc_get hnext]
    simp [List.getD_eq_getElem?_getD, List.getElem?_set_self hlt]

theorem enc_label_lt {z : List Nat} {v n : Nat} (hz : p.Labeling z) (hn : p.numLabels[v]? = some n) : z.getD v 0 < n := by
  have hv : v < z.length := by rw [hz.1]; exact (List.getElem?_eq_some_iff.mp hn).1
  have := hz.2 v z[v] n (List.getElem?_eq_getElem hv) hn
  simpa [List.getD_eq_getElem?_getD, List.getElem?_eq_getElem hv] using this

/-- Expanding a node keeps the invariant. -/
theorem Core.expand (hc : Ctx e s p val) {a : Node V} {rest : List (Node V)} {found : List (List Nat)} (h : Core e s p val (a :: rest) found)
    {bs : List V} {next n : Nat} (hnext : s.para.nodeOrder[a.conf.length]? = some next) (hn : p.numLabels[next]? = some n) (hlen : bs.length = n)
    (hb : ∀ (j : Nat) (b : V) (z' : List Nat), bs[j]? = some b → p.Labeling z' → (a.conf ++ [j]) <+: enc s.para.nodeOrder z' →
        e.bop (val z') b = false ∧ (a.conf.length + 1 = p.numLabels.length → b = val z')) :
    Core e s p val (rest ++ children e.zero a.conf bs (List.range n)) found := by
  have hchild : ∀ c ∈ children e.zero a.conf bs (List.range n), ∃ j b, j < n ∧ bs[j]? = some b ∧ c = ⟨a.conf ++ [j], b⟩ := by
    intro c hcm
    simp only [children, List.mem_map, List.mem_range] at hcm
    obtain ⟨j, hj, rfl⟩ := hcm
    have hj' : j < bs.length := by omega
    refine ⟨j, bs[j], hj, List.getElem?_eq_getElem hj', ?_⟩
    simp [List.getD_eq_getElem?_getD, List.getElem?_eq_getElem hj']
  have hap := List.pairwise_cons.mp h.apart
  obtain ⟨z0, hz0, hp0⟩ := h.valid a (by simp)
  refine ⟨?_, ?_, ?_, ?_, ?_, h.best⟩
  · intro c hcm
    rcases List.mem_append.mp hcm with hcm | hcm
    · exact h.valid c (by simp [hcm])
    · obtain ⟨j, b, hj, _, rfl⟩ := hchild c hcm
      exact ⟨z0.set next j, labeling_set hz0 hn hj, enc_set hc hz0 hp0 hnext hn⟩
  · intro z hz
    rcases h.cover z hz with h1 | ⟨c, hcm, h1⟩
    · exact Or.inl h1
    · right
      rcases List.mem_cons.mp hcm with rfl | hcm
      · refine ⟨⟨c.conf ++ [z.getD next 0], bs.getD (z.getD next 0) e.zero⟩, ?_, prefix_concat h1 (enc_get hnext)⟩
        apply List.mem_append_right
        exact List.mem_map.mpr ⟨z.getD next 0, List.mem_range.mpr (enc_label_lt hz hn), rfl⟩
      · exact ⟨c, by simp [hcm], h1⟩
  · rw [List.pairwise_append]
    refine ⟨hap.2, ?_, ?_⟩
    · unfold children
      rw [List.pairwise_map]
      refine (List.pairwise_lt_range).imp (fun {i j} hij => ?_)
      have key : ∀ i j : Nat, i ≠ j → ¬ (a.conf ++ [i]) <+: (a.conf ++ [j]) := by
        intro i j hne hpre
        have := concat_prefix_get hpre
        simp at this
        exact hne this.symm
      exact ⟨key i j (by omega), key j i (by omega)⟩
    · intro b hb' c hcm
      obtain ⟨j, bb, hj, _, rfl⟩ := hchild c hcm
      have h1 := hap.1 b hb'
      refine ⟨fun hpre => ?_, fun hpre => h1.1 (prefix_of_concat hpre)⟩
      rcases prefix_total hpre (List.prefix_append a.conf [j]) with h2 | h2
      · exact h1.2 h2
      · exact h1.1 h2
  · intro x hx c hcm
    rcases List.mem_append.mp hcm with hcm | hcm
    · exact h.fresh x hx c (by simp [hcm])
    · obtain ⟨j, b, hj, _, rfl⟩ := hchild c hcm
      exact fun hpre => h.fresh x hx a (by simp) (prefix_of_concat hpre)
  · intro c hcm hne z hz hpre
    rcases List.mem_append.mp hcm with hcm | hcm
    · exact h.bound c (by simp [hcm]) hne z hz hpre
    · obtain ⟨j, b, hj, hbj, rfl⟩ := hchild c hcm
      have := hb j b z hbj hz hpre
      simpa using this

/-- Taking a complete best node off the heap. -/
theorem Core.pop (hc : Ctx e s p val) {a : Node V} {rest : List (Node V)} {found : List (List Nat)} (h : Core e s p val (a :: rest) found)
    (hheap : ∀ b ∈ rest, e.bop b.value a.value = false) {z : List Nat} (hz : p.Labeling z) (hfull : a.conf = enc s.para.nodeOrder z) :
    Core e s p val rest (found ++ [z]) ∧ Best e.bop p val (found ++ [z]) := by
  have hap := List.pairwise_cons.mp h.apart
  have hnf : z ∉ found := fun hm => h.fresh z hm a (by simp) (by rw [hfull]; exact List.prefix_rfl)
  have hlen : a.conf.length = p.numLabels.length := by rw [hfull, enc_length hc]
  have hval : a.conf ≠ [] → a.value = val z := fun hne => (h.bound a (by simp) hne z hz (by rw [hfull]; exact List.prefix_rfl)).2 hlen
  have hbest : ∀ y, p.Labeling y → y ∉ found → y ≠ z → e.bop (val y) (val z) = false := by
    intro y hy hyf hyz
    rcases h.cover y hy with h1 | ⟨b, hb, h1⟩
    · exact absurd h1 hyf
    · rcases List.mem_cons.mp hb with rfl | hb
      · exfalso
        apply hyz
        refine enc_injective hc.perm hy hz ?_
        rw [← hfull]
        exact (h1.eq_of_length (by rw [hlen, enc_length hc])).symm
      · have h2 := hap.1 b hb
        have hne : a.conf ≠ [] := fun h0 => h2.1 (by rw [h0]; exact List.nil_prefix)
        have hne' : b.conf ≠ [] := fun h0 => h2.2 (by rw [h0]; exact List.nil_prefix)
        rw [← hval hne]
        exact hc.order.neg (hheap b hb) (h.bound b (by simp [hb]) hne' y hy h1).1
  have hB : Best e.bop p val (found ++ [z]) := by
    refine ⟨?_, ?_, ?_, ?_⟩
    · intro x hx
      rcases List.mem_append.mp hx with hx | hx
      · exact h.best.labeling x hx
      · simp at hx; subst hx; exact hz
    · rw [List.nodup_append]
      refine ⟨h.best.nodup, by simp, ?_⟩
      intro x hx y hy
      simp at hy; subst hy
      intro hxy; subst hxy; exact hnf hx
    · rw [List.pairwise_append]
      refine ⟨h.best.sorted, by simp, ?_⟩
      intro x hx y hy
      simp at hy; subst hy
      exact h.best.best x hx y hz hnf
    · intro x hx y hy hyf
      simp only [List.mem_append, List.mem_singleton, not_or] at hyf
      rcases List.mem_append.mp hx with hx | hx
      · exact h.best.best x hx y hy hyf.1
      · simp at hx; subst hx; exact hbest y hy hyf.1 hyf.2
  refine ⟨⟨?_, ?_, hap.2, ?_, ?_, hB⟩, hB⟩
  · exact fun b hb => h.valid b (by simp [hb])
  · intro y hy
    rcases h.cover y hy with h1 | ⟨b, hb, h1⟩
    · exact Or.inl (by simp [h1])
    · rcases List.mem_cons.mp hb with rfl | hb
      · left
        have : y = z := by
          refine enc_injective hc.perm hy hz ?_
          rw [← hfull]
          exact (h1.eq_of_length (by rw [hlen, enc_length hc])).symm
        simp [this]
      · exact Or.inr ⟨b, hb, h1⟩
  · intro x hx b hb
    rcases List.mem_append.mp hx with hx | hx
    · exact h.fresh x hx b (by simp [hb])
    · simp at hx; subst hx
      intro hpre
      rw [← hfull] at hpre
      exact (hap.1 b hb).2 hpre
  · exact fun b hb => h.bound b (by simp [hb])

end AStar
end OpenGM
