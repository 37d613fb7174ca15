import Verif.Lemmas.BPExact
import Verif.Model.MessagePassing
import Mathlib.Data.Set.Card
/-
The order in which inferAcyclic sends messages: one half for the messages of the variables, one for those of the factors.
-/
namespace OpenGM.MessagePassing
open Spec BP

/-- The number of messages to `a` that the message from `a` to `b` still needs; `ns` are the neighbours of `a`, `s` the messages sent to them. -/
def missing (ns : List Nat) (s : Finset (Nat × Nat)) (a b : Nat) : Nat := (ns.filter (fun b' => decide (b' ≠ b ∧ (b', a) ∉ s))).length

theorem missing_zero {ns : List Nat} {s : Finset (Nat × Nat)} {a b : Nat} : missing ns s a b = 0 ↔ ∀ b' ∈ ns, b' ≠ b → (b', a) ∈ s := by
  simp only [missing, List.length_eq_zero_iff, List.filter_eq_nil_iff, decide_eq_true_eq]
  constructor
  · intro h b' hb hne
    by_contra hc
    exact h b' hb ⟨hne, hc⟩
  · rintro h b' hb ⟨hne, hc⟩
    exact hc (h b' hb hne)

theorem missing_insert_ne {ns : List Nat} {s : Finset (Nat × Nat)} {a b c d : Nat} (h : d ≠ a) : missing ns (insert (c, d) s) a b = missing ns s a b := by
  unfold missing
  congr 1
  apply List.filter_congr
  intro b' _
  simp [Ne.symm h]

theorem missing_insert_self {ns : List Nat} {s : Finset (Nat × Nat)} {a b : Nat} : missing ns (insert (b, a) s) a b = missing ns s a b := by
  unfold missing
  congr 1
  apply List.filter_congr
  intro b' _
  by_cases h : b' = b <;> simp [h]

theorem missing_insert {ns : List Nat} (hn : ns.Nodup) {s : Finset (Nat × Nat)} {a b c : Nat} (hc : c ∈ ns) (hcb : c ≠ b) (hs : (c, a) ∉ s) :
    missing ns s a b = missing ns (insert (c, a) s) a b + 1 := by
  unfold missing
  induction ns with
  | nil => simp at hc
  | cons d ns ih =>
    obtain ⟨hd, hn⟩ := List.nodup_cons.mp hn
    by_cases hdc : d = c
    · subst hdc
      have e : ns.filter (fun b' => decide (b' ≠ b ∧ (b', a) ∉ insert (d, a) s)) = ns.filter (fun b' => decide (b' ≠ b ∧ (b', a) ∉ s)) := by
        apply List.filter_congr
        intro b' hb'
        have : b' ≠ d := fun e => hd (e ▸ hb')
        simp [this]
      rw [List.filter_cons_of_pos (by simp [hcb, hs]), List.filter_cons_of_neg (by simp), e]
      simp
    · have hc' : c ∈ ns := by
        rcases List.mem_cons.mp hc with h | h
        · exact absurd h.symm hdc
        · exact h
      have := ih hn hc'
      by_cases hp : d ≠ b ∧ (d, a) ∉ s
      · rw [List.filter_cons_of_pos (by simpa using hp), List.filter_cons_of_pos (by
          simp only [decide_eq_true_eq]
          refine ⟨hp.1, ?_⟩
          simp [hdc, hp.2])]
        simp only [List.length_cons]
        omega
      · rw [List.filter_cons_of_neg (by simpa using hp), List.filter_cons_of_neg (by
          simp only [decide_eq_true_eq]
          rintro ⟨h1, h2⟩
          apply hp
          refine ⟨h1, fun h3 => h2 (Finset.mem_insert_of_mem h3)⟩)]
        exact this

/-- One half of the schedule: nodes `a < n` with neighbours `N a`; `sA` are the messages sent by them, `sB` the messages sent to them. -/
structure Half (N : Nat → List Nat) (n : Nat) (sA sB : Finset (Nat × Nat)) (c : List (List Nat)) (ready : List (Nat × Nat)) : Prop where
  len : c.length = n
  row : ∀ (a : Nat) (l : List Nat), c[a]? = some l → l.length = (N a).length
  nodup : ready.Nodup
  canSend : ∀ a j, (a, j) ∈ ready → ∃ b, (N a)[j]? = some b ∧ (a, b) ∉ sA ∧ missing (N a) sB a b = 0
  sent : ∀ a b, (a, b) ∈ sA → b ∈ N a ∧ missing (N a) sB a b = 0
  waits : ∀ (a j b : Nat), (N a)[j]? = some b → (a, b) ∈ sA ∨ (a, j) ∈ ready ∨
    ((∃ l : List Nat, c[a]? = some l ∧ l[j]? = some (missing (N a) sB a b)) ∧ 0 < missing (N a) sB a b)

variable {N : Nat → List Nat} {n : Nat} {sA sB : Finset (Nat × Nat)} {c : List (List Nat)} {ready : List (Nat × Nat)}

theorem Half.send (hN : ∀ a, (N a).Nodup) {a j b : Nat} {rest : List (Nat × Nat)} (h : Half N n sA sB c ((a, j) :: rest)) (hb : (N a)[j]? = some b) :
    Half N n (insert (a, b) sA) sB c rest := by
  obtain ⟨hnm, hnd⟩ := List.nodup_cons.mp h.nodup
  refine ⟨h.len, h.row, hnd, ?_, ?_, ?_⟩
  · intro a' j' hm
    obtain ⟨b', h1, h2, h3⟩ := h.canSend a' j' (List.mem_cons_of_mem _ hm)
    refine ⟨b', h1, ?_, h3⟩
    rw [Finset.mem_insert, not_or]
    refine ⟨?_, h2⟩
    intro e
    simp only [Prod.mk.injEq] at e
    obtain ⟨rfl, rfl⟩ := e
    have : j' = j := by
      have l1 := (List.getElem?_eq_some_iff.mp h1).1
      exact (hN a').getElem_inj_iff.mp ((List.getElem?_eq_some_iff.mp h1).2.trans (List.getElem?_eq_some_iff.mp hb).2.symm)
    subst this
    exact hnm hm
  · intro a' b' hm
    rcases Finset.mem_insert.mp hm with e | hm
    · simp only [Prod.mk.injEq] at e
      obtain ⟨rfl, rfl⟩ := e
      refine ⟨List.mem_of_getElem? hb, ?_⟩
      obtain ⟨b', h1, _, h3⟩ := h.canSend a' j (by simp)
      rw [hb] at h1
      cases h1
      exact h3
    · exact h.sent a' b' hm
  · intro a' j' b' hb'
    rcases h.waits a' j' b' hb' with h1 | h1 | h1
    · exact Or.inl (Finset.mem_insert_of_mem h1)
    · rcases List.mem_cons.mp h1 with e | h1
      · simp only [Prod.mk.injEq] at e
        obtain ⟨rfl, rfl⟩ := e
        rw [hb] at hb'
        cases hb'
        exact Or.inl (Finset.mem_insert_self _ _)
      · exact Or.inr (Or.inl h1)
    · exact Or.inr (Or.inr h1)

theorem release_eq {self : Nat} : ∀ {ws cs : List Nat} {k : Nat}, cs.length = ws.length →
    ∃ cs' new, release self ws cs k = some (cs', new) ∧ cs'.length = ws.length ∧ new.Nodup ∧
      (∀ (i w x : Nat), ws[i]? = some w → cs[i]? = some x → cs'[i]? = some (if w ≠ self then dec x else x)) ∧
      ∀ i, i ∈ new ↔ k ≤ i ∧ ∃ w x : Nat, ws[i - k]? = some w ∧ cs[i - k]? = some x ∧ w ≠ self ∧ dec x = 0
  | [], [], k, _ => ⟨[], [], rfl, rfl, List.nodup_nil, by simp, by simp⟩
  | [], _ :: _, _, h => by simp at h
  | _ :: _, [], _, h => by simp at h
  | w :: ws, x :: cs, k, h => by
    obtain ⟨cs', new, e1, e2, e3, e4, e5⟩ := release_eq (self := self) (ws := ws) (cs := cs) (k := k + 1) (by simpa using h)
    have hk : k ∉ new := by
      intro hk
      have := ((e5 k).mp hk).1
      omega
    have tailmem : ∀ i, (k + 1 ≤ i ∧ ∃ w' x' : Nat, ws[i - (k + 1)]? = some w' ∧ cs[i - (k + 1)]? = some x' ∧ w' ≠ self ∧ dec x' = 0) ↔
        (k ≤ i ∧ i ≠ k ∧ ∃ w' x' : Nat, (w :: ws)[i - k]? = some w' ∧ (x :: cs)[i - k]? = some x' ∧ w' ≠ self ∧ dec x' = 0) := by
      intro i
      constructor
      · rintro ⟨h1, h2⟩
        obtain ⟨m, rfl⟩ : ∃ m, i = k + 1 + m := ⟨i - (k + 1), by omega⟩
        rw [show k + 1 + m - (k + 1) = m by omega] at h2
        rw [show k + 1 + m - k = m + 1 by omega]
        exact ⟨by omega, by omega, by simpa using h2⟩
      · rintro ⟨h1, h3, h2⟩
        obtain ⟨m, rfl⟩ : ∃ m, i = k + 1 + m := ⟨i - (k + 1), by omega⟩
        rw [show k + 1 + m - (k + 1) = m by omega]
        rw [show k + 1 + m - k = m + 1 by omega] at h2
        exact ⟨by omega, by simpa using h2⟩
    unfold release
    rw [e1]
    simp only
    by_cases hw : w ≠ self
    · rw [if_pos hw]
      by_cases hd : dec x = 0
      · rw [if_pos hd]
        refine ⟨_, _, rfl, by simpa using e2, List.nodup_cons.mpr ⟨hk, e3⟩, ?_, ?_⟩
        · intro i w' x' h1 h2
          cases i with
          | zero => simp at h1 h2; subst h1; subst h2; simp [hw]
          | succ i => exact e4 i w' x' (by simpa using h1) (by simpa using h2)
        · intro i
          rw [List.mem_cons, e5, tailmem]
          constructor
          · rintro (rfl | ⟨h1, _, h2⟩)
            · exact ⟨Nat.le_refl _, w, x, by simp, by simp, hw, hd⟩
            · exact ⟨h1, h2⟩
          · rintro ⟨h1, h2⟩
            by_cases hik : i = k
            · exact Or.inl hik
            · exact Or.inr ⟨h1, hik, h2⟩
      · rw [if_neg hd]
        refine ⟨_, _, rfl, by simpa using e2, e3, ?_, ?_⟩
        · intro i w' x' h1 h2
          cases i with
          | zero => simp at h1 h2; subst h1; subst h2; simp [hw]
          | succ i => exact e4 i w' x' (by simpa using h1) (by simpa using h2)
        · intro i
          rw [e5, tailmem]
          constructor
          · rintro ⟨h1, _, h2⟩
            exact ⟨h1, h2⟩
          · rintro ⟨h1, h2⟩
            refine ⟨h1, ?_, h2⟩
            rintro rfl
            obtain ⟨w', x', g1, g2, _, g3⟩ := h2
            simp at g1 g2
            subst g2
            exact hd g3
    · rw [if_neg hw]
      refine ⟨_, _, rfl, by simpa using e2, e3, ?_, ?_⟩
      · intro i w' x' h1 h2
        cases i with
        | zero => simp at h1 h2; subst h1; subst h2; simp [hw]
        | succ i => exact e4 i w' x' (by simpa using h1) (by simpa using h2)
      · intro i
        rw [e5, tailmem]
        constructor
        · rintro ⟨h1, _, h2⟩
          exact ⟨h1, h2⟩
        · rintro ⟨h1, h2⟩
          refine ⟨h1, ?_, h2⟩
          rintro rfl
          obtain ⟨w', x', g1, g2, g3, _⟩ := h2
          simp at g1
          subst g1
          exact hw g3

theorem Half.recv (hN : ∀ a, (N a).Nodup) {a b' : Nat} (h : Half N n sA sB c ready) (hb : b' ∈ N a) (ha : a < n) (hs : (b', a) ∉ sB) :
    ∃ l l' new, c[a]? = some l ∧ release b' (N a) l 0 = some (l', new) ∧
      Half N n sA (insert (b', a) sB) (c.set a l') ((new.map (fun i => (a, i))).reverse ++ ready) := by
  have hal : a < c.length := by rw [h.len]; exact ha
  obtain ⟨l, hl⟩ : ∃ l, c[a]? = some l := ⟨c[a], List.getElem?_eq_getElem hal⟩
  have hll := h.row a l hl
  obtain ⟨l', new, e1, e2, e3, e4, e5⟩ := release_eq (self := b') (k := 0) hll
  simp only [Nat.zero_le, Nat.sub_zero, true_and] at e5
  -- a message from `a` to a node other than `b'` waits
  have wait : ∀ (i w : Nat), (N a)[i]? = some w → w ≠ b' → l[i]? = some (missing (N a) sB a w) ∧ (a, i) ∉ ready ∧ (a, w) ∉ sA ∧
      missing (N a) sB a w = missing (N a) (insert (b', a) sB) a w + 1 := by
    intro i w hi hw
    have hm := missing_insert (hN a) (s := sB) (a := a) (b := w) hb (Ne.symm hw) hs
    have n1 : (a, w) ∉ sA := fun h1 => by have := (h.sent a w h1).2; omega
    have n2 : (a, i) ∉ ready := fun h1 => by
      obtain ⟨b, g1, _, g3⟩ := h.canSend a i h1
      rw [hi] at g1
      cases g1
      omega
    rcases h.waits a i w hi with h1 | h1 | ⟨⟨l2, g1, g2⟩, _⟩
    · exact absurd h1 n1
    · exact absurd h1 n2
    · rw [hl] at g1
      cases g1
      exact ⟨g2, n2, n1, hm⟩
  have hnew : ∀ i, i ∈ new ↔ ∃ w, (N a)[i]? = some w ∧ w ≠ b' ∧ missing (N a) (insert (b', a) sB) a w = 0 := by
    intro i
    rw [e5]
    constructor
    · rintro ⟨w, x, g1, g2, g3, g4⟩
      obtain ⟨q1, _, _, q2⟩ := wait i w g1 g3
      rw [g2] at q1
      cases q1
      refine ⟨w, g1, g3, ?_⟩
      simp [dec, q2] at g4
      exact g4
    · rintro ⟨w, g1, g3, g4⟩
      obtain ⟨q1, _, _, q2⟩ := wait i w g1 g3
      exact ⟨w, _, g1, q1, g3, by simp [dec, q2, g4]⟩
  refine ⟨l, l', new, hl, e1, ?_⟩
  refine ⟨by simpa using h.len, ?_, ?_, ?_, ?_, ?_⟩
  · intro a2 l2 h2
    by_cases haa : a = a2
    · subst haa
      rw [List.getElem?_set_self hal] at h2
      cases h2
      exact e2
    · rw [List.getElem?_set_ne haa] at h2
      exact h.row a2 l2 h2
  · rw [List.nodup_append]
    refine ⟨List.nodup_reverse.mpr (e3.map (fun x y e => by simpa using e)), h.nodup, ?_⟩
    intro q hq q' hq' e
    subst e
    rw [List.mem_reverse, List.mem_map] at hq
    obtain ⟨i, hi, rfl⟩ := hq
    obtain ⟨w, g1, g2, _⟩ := (hnew i).mp hi
    exact (wait i w g1 g2).2.1 hq'
  · intro a2 j2 hm
    rcases List.mem_append.mp hm with hm | hm
    · rw [List.mem_reverse, List.mem_map] at hm
      obtain ⟨i, hi, e⟩ := hm
      simp only [Prod.mk.injEq] at e
      obtain ⟨rfl, rfl⟩ := e
      obtain ⟨w, g1, g2, g3⟩ := (hnew i).mp hi
      exact ⟨w, g1, (wait i w g1 g2).2.2.1, g3⟩
    · obtain ⟨b, g1, g2, g3⟩ := h.canSend a2 j2 hm
      refine ⟨b, g1, g2, ?_⟩
      rw [missing_zero] at g3 ⊢
      exact fun x hx hne => Finset.mem_insert_of_mem (g3 x hx hne)
  · intro a2 b hm
    obtain ⟨g1, g3⟩ := h.sent a2 b hm
    refine ⟨g1, ?_⟩
    rw [missing_zero] at g3 ⊢
    exact fun x hx hne => Finset.mem_insert_of_mem (g3 x hx hne)
  · intro a2 j2 b2 hb2
    by_cases haa : a = a2
    · subst haa
      by_cases hbb : b2 = b'
      · subst hbb
        rcases h.waits a j2 b2 hb2 with h1 | h1 | ⟨⟨l2, g1, g2⟩, g3⟩
        · exact Or.inl h1
        · exact Or.inr (Or.inl (List.mem_append_right _ h1))
        · rw [hl] at g1
          cases g1
          refine Or.inr (Or.inr ⟨⟨l', List.getElem?_set_self hal, ?_⟩, ?_⟩)
          · rw [missing_insert_self, e4 j2 b2 _ hb2 g2]
            simp
          · rw [missing_insert_self]; exact g3
      · obtain ⟨q1, _, _, q2⟩ := wait j2 b2 hb2 hbb
        by_cases hz : missing (N a) (insert (b', a) sB) a b2 = 0
        · refine Or.inr (Or.inl (List.mem_append_left _ ?_))
          rw [List.mem_reverse, List.mem_map]
          exact ⟨j2, (hnew j2).mpr ⟨b2, hb2, hbb, hz⟩, rfl⟩
        · refine Or.inr (Or.inr ⟨⟨l', List.getElem?_set_self hal, ?_⟩, by omega⟩)
          rw [e4 j2 b2 _ hb2 q1, if_pos hbb]
          simp [dec, q2]
    · rw [missing_insert_ne haa]
      rcases h.waits a2 j2 b2 hb2 with h1 | h1 | ⟨⟨l2, g1, g2⟩, g3⟩
      · exact Or.inl h1
      · exact Or.inr (Or.inl (List.mem_append_right _ h1))
      · exact Or.inr (Or.inr ⟨⟨l2, by rw [List.getElem?_set_ne haa]; exact g1, g2⟩, g3⟩)

theorem mem_readyOf : ∀ {rows : List (List Nat)} {k a j : Nat}, (a, j) ∈ readyOf rows k ↔ k ≤ a ∧ ∃ row : List Nat, rows[a - k]? = some row ∧ row[j]? = some 0
  | [], k, a, j => by simp [readyOf]
  | row :: rows, k, a, j => by
    rw [readyOf, List.mem_append, mem_readyOf]
    simp only [List.mem_map, List.mem_filter, List.mem_range, decide_eq_true_eq, Prod.mk.injEq]
    constructor
    · rintro (⟨i, ⟨_, h2⟩, rfl, rfl⟩ | ⟨h1, row', h2, h3⟩)
      · exact ⟨Nat.le_refl _, row, by simp, h2⟩
      · obtain ⟨m, rfl⟩ : ∃ m, a = k + 1 + m := ⟨a - (k + 1), by omega⟩
        rw [show k + 1 + m - (k + 1) = m by omega] at h2
        refine ⟨by omega, row', ?_, h3⟩
        rw [show k + 1 + m - k = m + 1 by omega]
        simpa using h2
    · rintro ⟨h1, row', h2, h3⟩
      by_cases hak : a = k
      · subst hak
        simp at h2
        subst h2
        exact Or.inl ⟨j, ⟨(List.getElem?_eq_some_iff.mp h3).1, h3⟩, rfl, rfl⟩
      · obtain ⟨m, rfl⟩ : ∃ m, a = k + 1 + m := ⟨a - (k + 1), by omega⟩
        rw [show k + 1 + m - k = m + 1 by omega] at h2
        refine Or.inr ⟨by omega, row', ?_, h3⟩
        rw [show k + 1 + m - (k + 1) = m by omega]
        simpa using h2

theorem nodup_readyOf : ∀ {rows : List (List Nat)} {k : Nat}, (readyOf rows k).Nodup
  | [], k => List.nodup_nil
  | row :: rows, k => by
    rw [readyOf, List.nodup_append]
    refine ⟨(List.nodup_range.filter _).map (fun x y e => by simpa using e), nodup_readyOf, ?_⟩
    rintro ⟨a, j⟩ h1 ⟨a', j'⟩ h2 e
    simp only [List.mem_map, Prod.mk.injEq] at h1
    obtain ⟨_, _, rfl, rfl⟩ := h1
    have := (mem_readyOf.mp h2).1
    simp only [Prod.mk.injEq] at e
    omega

theorem missing_empty {ns : List Nat} (hn : ns.Nodup) {a b : Nat} (hb : b ∈ ns) : missing ns ∅ a b = ns.length - 1 := by
  unfold missing
  have e : ns.filter (fun b' => decide (b' ≠ b ∧ (b', a) ∉ (∅ : Finset (Nat × Nat)))) = ns.erase b := by
    rw [hn.erase_eq_filter]
    apply List.filter_congr
    intro x _
    simp [bne]
    by_cases h : x = b <;> simp [h]
  rw [e, List.length_erase_of_mem hb]

/-- The start of the schedule. -/
theorem Half.start (hN : ∀ a, (N a).Nodup) (hlt : ∀ a, N a ≠ [] → a < n) {c0 : List (List Nat)} (hc : c0 = (List.range n).map (fun a => List.replicate (N a).length ((N a).length - 1))) :
    Half N n ∅ ∅ (markReady c0) (readyOf c0 0).reverse := by
  have hrow : ∀ a, a < n → c0[a]? = some (List.replicate (N a).length ((N a).length - 1)) := by
    intro a ha
    rw [hc, List.getElem?_map, List.getElem?_range ha]; rfl
  have hclen : c0.length = n := by simp [hc]
  have hmr : ∀ a, a < n → (markReady c0)[a]? = some ((List.replicate (N a).length ((N a).length - 1)).map (fun c => if c = 0 then dec c else c)) := by
    intro a ha
    rw [markReady, List.getElem?_map, hrow a ha]; rfl
  refine ⟨by simp [markReady, hclen], ?_, List.nodup_reverse.mpr nodup_readyOf, ?_, by simp, ?_⟩
  · intro a l hl
    have hal : a < n := by
      have := (List.getElem?_eq_some_iff.mp hl).1
      simpa [markReady, hclen] using this
    rw [hmr a hal] at hl
    cases hl
    simp
  · intro a j hm
    rw [List.mem_reverse, mem_readyOf] at hm
    obtain ⟨_, row, h1, h2⟩ := hm
    rw [Nat.sub_zero] at h1
    have hal : a < n := by rw [← hclen]; exact (List.getElem?_eq_some_iff.mp h1).1
    rw [hrow a hal] at h1
    cases h1
    rw [List.getElem?_replicate] at h2
    split at h2
    · rename_i hj
      cases hb : (N a)[j]? with
      | none => rw [List.getElem?_eq_none_iff] at hb; omega
      | some b =>
        refine ⟨b, rfl, by simp, ?_⟩
        rw [missing_empty (hN a) (List.mem_of_getElem? hb)]
        simpa using h2
    · simp at h2
  · intro a j b hb
    have hj := (List.getElem?_eq_some_iff.mp hb).1
    have hal : a < n := hlt a (by intro e; rw [e] at hj; simp at hj)
    have hme := missing_empty (hN a) (a := a) (List.mem_of_getElem? hb)
    by_cases hz : (N a).length - 1 = 0
    · refine Or.inr (Or.inl ?_)
      rw [List.mem_reverse, mem_readyOf]
      refine ⟨Nat.zero_le _, _, by rw [Nat.sub_zero]; exact hrow a hal, ?_⟩
      rw [List.getElem?_replicate, if_pos hj, hz]
    · refine Or.inr (Or.inr ⟨⟨_, hmr a hal, ?_⟩, by omega⟩)
      rw [List.getElem?_map, List.getElem?_replicate, if_pos hj, hme]
      simp [hz]

/-! ### Everything is sent -/

theorem side_finite {scopes : List (List Nat)} {a b : Nat ⊕ Nat} (h : (bipartite scopes).Adj a b) : (side (bipartite scopes) a b).Finite := by
  have hT : (Sum.inl '' (↑scopes.flatten.toFinset : Set Nat) ∪ Sum.inr '' (↑(Finset.range scopes.length) : Set Nat) : Set (Nat ⊕ Nat)).Finite :=
    ((Finset.finite_toSet _).image _).union ((Finset.finite_toSet _).image _)
  have mem : ∀ x y, (bipartite scopes).Adj x y → x ∈ (Sum.inl '' (↑scopes.flatten.toFinset : Set Nat) ∪ Sum.inr '' (↑(Finset.range scopes.length) : Set Nat) : Set (Nat ⊕ Nat)) := by
    intro x y hxy
    cases x with
    | inl v =>
      obtain ⟨g, rfl, hv⟩ := neighbour_left hxy.symm
      obtain ⟨s, h1, h2⟩ := mem_scopeOf.mp hv
      refine Or.inl ⟨v, ?_, rfl⟩
      simp only [Finset.mem_coe, List.mem_toFinset, List.mem_flatten]
      exact ⟨s, List.mem_of_getElem? h1, h2⟩
    | inr f =>
      obtain ⟨w, rfl, hv⟩ := neighbour_right hxy.symm
      exact Or.inr ⟨f, by simpa using scope_lt hv, rfl⟩
  refine hT.subset ?_
  refine side_induction (mem _ _ h) ?_
  intro x y _ _ _ hxy _
  exact mem _ _ hxy.symm

theorem ncard_side_lt {scopes : List (List Nat)} (hG : (bipartite scopes).IsAcyclic) {a b c : Nat ⊕ Nat} (hab : (bipartite scopes).Adj a b) (hc : (bipartite scopes).Adj c a) (hcb : c ≠ b) :
    (side (bipartite scopes) c a).ncard < (side (bipartite scopes) a b).ncard := by
  apply Set.ncard_lt_ncard _ (side_finite hab)
  refine ⟨side_sub hG hc hcb, fun hs => ?_⟩
  exact not_mem_side hG hc (hs (self_mem_side a b))

/-- If no message can be sent, all have been sent. -/
theorem all_sent {scopes : List (List Nat)} (hG : (bipartite scopes).IsAcyclic) {NV : Nat → List Nat} {nV nF : Nat} {sV sF : Finset (Nat × Nat)} {cV cF : List (List Nat)}
    (hNV : ∀ v f, f ∈ NV v ↔ v ∈ scopeOf scopes f) (hV : Half NV nV sV sF cV []) (hF : Half (scopeOf scopes) nF sF sV cF []) :
    ∀ m, (∀ v f, v ∈ scopeOf scopes f → (side (bipartite scopes) (.inl v) (.inr f)).ncard ≤ m → (v, f) ∈ sV) ∧
      (∀ v f, v ∈ scopeOf scopes f → (side (bipartite scopes) (.inr f) (.inl v)).ncard ≤ m → (f, v) ∈ sF) := by
  intro m
  induction m using Nat.strong_induction_on with
  | _ m ih =>
    constructor
    · intro v f hvf hm
      obtain ⟨j, hj⟩ := List.mem_iff_getElem?.mp ((hNV v f).mpr hvf)
      rcases hV.waits v j f hj with h1 | h1 | ⟨_, h1⟩
      · exact h1
      · simp at h1
      · exfalso
        have : missing (NV v) sF v f = 0 := by
          rw [missing_zero]
          intro g hg hne
          have hvg := (hNV v g).mp hg
          have hlt := ncard_side_lt hG (adj_iff.mpr hvf) (adj_iff'.mpr hvg) (by simpa using hne)
          exact (ih _ (Nat.lt_of_lt_of_le hlt hm)).2 v g hvg (Nat.le_refl _)
        omega
    · intro v f hvf hm
      obtain ⟨j, hj⟩ := List.mem_iff_getElem?.mp hvf
      rcases hF.waits f j v hj with h1 | h1 | ⟨_, h1⟩
      · exact h1
      · simp at h1
      · exfalso
        have : missing (scopeOf scopes f) sV f v = 0 := by
          rw [missing_zero]
          intro w hw hne
          have hlt := ncard_side_lt hG (adj_iff'.mpr hvf) (adj_iff.mpr hw) (by simpa using hne)
          exact (ih _ (Nat.lt_of_lt_of_le hlt hm)).1 w f hw (Nat.le_refl _)
        omega

end OpenGM.MessagePassing
