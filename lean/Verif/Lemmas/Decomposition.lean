import Verif.Model.Decomposition
import Mathlib.Data.List.Perm.Basic
import Mathlib.Data.List.Nodup
import Mathlib.Data.List.Basic
/-
Invariant of decompositions and the effect of the calls that add something.
-/
namespace OpenGM
namespace Decomposition
open Spec

theorem flatten_set_perm {α : Type} : ∀ {L : List (List α)} {f : Nat} {l : List α} (x : α), L[f]? = some l →
    (L.set f (l ++ [x])).flatten.Perm (x :: L.flatten)
  | [], _, _, _, h => absurd h (by simp)
  | l0 :: L, 0, l, x, h => by
    simp only [List.getElem?_cons_zero, Option.some.injEq] at h
    subst h
    simp only [List.set_cons_zero, List.flatten_cons, List.append_assoc, List.singleton_append]
    exact List.perm_middle
  | l0 :: L, f + 1, l, x, h => by
    simp only [List.getElem?_cons_succ] at h
    simp only [List.set_cons_succ, List.flatten_cons]
    exact ((flatten_set_perm x h).append_left l0).trans List.perm_middle

theorem pushEmpty_perm (key : List Nat) (x : SubFactor) : ∀ e : List (List Nat × List SubFactor),
    ((pushEmpty key x e).flatMap Prod.snd).Perm (x :: e.flatMap Prod.snd)
  | [] => by simp [pushEmpty]
  | (k, l) :: rest => by
    unfold pushEmpty
    split
    · simp only [List.flatMap_cons, List.append_assoc, List.singleton_append]
      exact List.perm_middle
    · simp only [List.flatMap_cons]
      exact ((pushEmpty_perm key x rest).append_left l).trans List.perm_middle

theorem pushEmpty_keys (key : List Nat) (x : SubFactor) : ∀ e : List (List Nat × List SubFactor),
    (pushEmpty key x e).map Prod.fst = if key ∈ e.map Prod.fst then e.map Prod.fst else e.map Prod.fst ++ [key]
  | [] => by simp [pushEmpty]
  | (k, l) :: rest => by
    unfold pushEmpty
    by_cases hk : k = key
    · simp [hk]
    · rw [if_neg hk]
      simp only [List.map_cons, pushEmpty_keys key x rest, List.mem_cons]
      by_cases hm : key ∈ rest.map Prod.fst
      · rw [if_pos hm, if_pos (Or.inr hm)]
      · rw [if_neg hm, if_neg (by rintro (h | h); exacts [hk h.symm, hm h]), List.cons_append]

theorem mem_pushEmpty (key : List Nat) (x : SubFactor) : ∀ (e : List (List Nat × List SubFactor)) (p : List Nat × List SubFactor),
    p ∈ pushEmpty key x e → p ∈ e ∨ (p.1 = key ∧ ∃ l, p.2 = l ++ [x] ∧ (l = [] ∨ (key, l) ∈ e))
  | [], p, h => by
    simp only [pushEmpty, List.mem_singleton] at h
    subst h
    exact Or.inr ⟨rfl, [], rfl, Or.inl rfl⟩
  | (k, l) :: rest, p, h => by
    unfold pushEmpty at h
    split at h
    · rename_i hk
      rcases List.mem_cons.mp h with h | h
      · subst h
        exact Or.inr ⟨hk, l, rfl, Or.inr (by simp [hk])⟩
      · exact Or.inl (by simp [h])
    · rcases List.mem_cons.mp h with h | h
      · exact Or.inl (by simp [h])
      · rcases mem_pushEmpty key x rest p h with h | ⟨h1, l', h2, h3⟩
        · exact Or.inl (by simp [h])
        · refine Or.inr ⟨h1, l', h2, h3.imp id (fun h => by simp [h])⟩

theorem emptyAt_pushEmpty (key : List Nat) (x : SubFactor) (key' : List Nat) : ∀ e : List (List Nat × List SubFactor),
    emptyAt key' (pushEmpty key x e) = if key' = key then emptyAt key e ++ [x] else emptyAt key' e
  | [] => by
    unfold pushEmpty emptyAt
    by_cases h : key' = key
    · simp [h]
    · have : (key' == key) = false := by simp [h]
      simp [List.lookup_cons, h, this]
  | (k, l) :: rest => by
    unfold pushEmpty
    have ih := emptyAt_pushEmpty key x key' rest
    unfold emptyAt at ih ⊢
    by_cases hk : k = key
    · subst hk
      rw [if_pos rfl]
      by_cases h : key' = k
      · subst h
        simp
      · have : (key' == k) = false := by simp [h]
        simp [List.lookup_cons, h, this]
    · rw [if_neg hk]
      by_cases h : key' = k
      · subst h
        simp [hk]
      · have h1 : (key' == k) = false := by simp [h]
        simp only [List.lookup_cons, h1]
        rw [ih]
        by_cases h2 : key' = key
        · subst h2
          simp [h1]
        · simp [h2]

theorem emptyAt_touch (key key' : List Nat) (e : List (List Nat × List SubFactor)) : emptyAt key' (touchEmpty key e) = emptyAt key' e := by
  unfold touchEmpty
  cases h : e.lookup key with
  | some l => rfl
  | none =>
    unfold emptyAt
    simp only [List.lookup_append]
    cases h' : e.lookup key' with
    | some l => simp
    | none =>
      simp only [Option.none_or, List.lookup_cons, List.lookup_nil]
      by_cases hk : key' = key
      · simp [hk]
      · have : (key' == key) = false := by simp [hk]
        simp [this]

theorem mem_of_lookup {key : List Nat} {l : List SubFactor} : ∀ {e : List (List Nat × List SubFactor)}, e.lookup key = some l → (key, l) ∈ e
  | [], h => absurd h (by simp)
  | (k, l') :: rest, h => by
    by_cases hk : key = k
    · subst hk
      simp only [List.lookup_cons, beq_self_eq_true, Option.some.injEq] at h
      simp [h]
    · have h1 : (key == k) = false := by simp [hk]
      simp only [List.lookup_cons, h1] at h
      simp [mem_of_lookup h]

theorem mem_emptyAt {key : List Nat} {e : List (List Nat × List SubFactor)} {s : SubFactor} (h : s ∈ emptyAt key e) :
    ∃ l, (key, l) ∈ e ∧ s ∈ l := by
  unfold emptyAt at h
  split at h
  · rename_i l hl
    exact ⟨l, mem_of_lookup hl, h⟩
  · simp at h

/-- What holds of the decompositions of a model with factors over `scopes`. -/
structure WF (scopes : List (List Nat)) (d : Decomposition) : Prop where
  varsLen : d.varLists.length = d.numVars
  facsLen : d.facLists.length = d.numFactors
  scopesLen : scopes.length = d.numFactors
  subVarsLen : d.numSubVars.length = d.numModels
  subFacsLen : d.numSubFactors.length = d.numModels
  numbered : Numbered d.varLists d.numSubVars
  copies : ∀ (f : Nat) (l : List SubFactor) (s : SubFactor), d.facLists[f]? = some l → s ∈ l →
    s.model < d.numModels ∧ ∃ vars, scopes[f]? = some vars ∧ CopiesOf d.varLists s.model s.indices vars
  emptyCopies : ∀ (key : List Nat) (l : List SubFactor) (s : SubFactor), (key, l) ∈ d.empty → s ∈ l →
    s.model < d.numModels ∧ CopiesOf d.varLists s.model s.indices key
  keys : (d.empty.map Prod.fst).Nodup
  idLt : ∀ s ∈ d.facLists.flatten, ∃ k n, s.id = some k ∧ d.numSubFactors[s.model]? = some n ∧ k < n
  idOnce : (d.facLists.flatten.map (fun s => (s.model, s.id))).Nodup
  count : ∀ (m n : Nat), d.numSubFactors[m]? = some n →
    n = d.facLists.flatten.countP (fun s => s.model = m) + (d.empty.flatMap Prod.snd).countP (fun s => s.model = m)

theorem not_copyOf_replicate (n m k v : Nat) : ¬ CopyOf (List.replicate n []) m k v := by
  rintro ⟨l, h1, h2⟩
  rw [List.getElem?_replicate] at h1
  split at h1
  · injection h1 with h1
    subst h1
    simp at h2
  · exact absurd h1 (by simp)

theorem flatten_replicate_nil {α : Type} (n : Nat) : (List.replicate n ([] : List α)).flatten = [] := by
  induction n with
  | zero => rfl
  | succ n ih => simp [List.replicate_succ]

theorem make_wf (n M : Nat) (scopes : List (List Nat)) : WF scopes (make n scopes.length M) where
  varsLen := by simp [make]
  facsLen := by simp [make]
  scopesLen := rfl
  subVarsLen := by simp [make]
  subFacsLen := by simp [make]
  numbered := {
    range := by
      intro m k
      constructor
      · rintro ⟨v, h⟩
        exact absurd h (not_copyOf_replicate n m k v)
      · rintro ⟨x, h, hk⟩
        simp only [make, List.getElem?_replicate] at h
        split at h
        · injection h with h
          omega
        · exact absurd h (by simp)
    unique := fun m k v v' h => absurd h (not_copyOf_replicate n m k v)
    once := by
      intro l hl
      rw [List.eq_of_mem_replicate hl]
      exact List.nodup_nil }
  copies := by
    intro f l s h hs
    simp only [make, List.getElem?_replicate] at h
    split at h
    · injection h with h
      subst h
      simp at hs
    · exact absurd h (by simp)
  emptyCopies := by intro key l s h; simp [make] at h
  keys := by simp [make]
  idLt := by intro s hs; simp [make, flatten_replicate_nil] at hs
  idOnce := by simp [make, flatten_replicate_nil]
  count := by
    intro m x h
    simp only [make, List.getElem?_replicate] at h
    split at h
    · injection h with h
      simp [make, flatten_replicate_nil, ← h]
    · exact absurd h (by simp)

theorem addSubModel_spec {scopes : List (List Nat)} {d : Decomposition} (h : WF scopes d) :
    d.addSubModel.1 = d.numModels ∧ WF scopes d.addSubModel.2 := by
  refine ⟨rfl, ?_⟩
  have hget : ∀ {l : List Nat} (hl : l.length = d.numModels) (m : Nat), (l ++ [0])[m]? = if m = d.numModels then some 0 else l[m]? := by
    intro l hl m
    by_cases hm : m = d.numModels
    · subst hm
      rw [if_pos rfl, List.getElem?_append_right (by omega), hl]
      simp
    · rw [if_neg hm]
      by_cases h2 : m < l.length
      · rw [List.getElem?_append_left h2]
      · rw [List.getElem?_append_right (by omega), List.getElem?_eq_none (by simp; omega), List.getElem?_eq_none (by omega)]
  have hfm : ∀ s ∈ d.facLists.flatten, s.model < d.numModels := by
    intro s hs
    obtain ⟨l, hl, hs⟩ := List.mem_flatten.mp hs
    obtain ⟨f, hf⟩ := List.mem_iff_getElem?.mp hl
    exact (h.copies f l s hf hs).1
  have hem : ∀ s ∈ d.empty.flatMap Prod.snd, s.model < d.numModels := by
    intro s hs
    obtain ⟨p, hp, hs⟩ := List.mem_flatMap.mp hs
    exact (h.emptyCopies p.1 p.2 s hp hs).1
  exact {
    varsLen := h.varsLen
    facsLen := h.facsLen
    scopesLen := h.scopesLen
    subVarsLen := by simp [addSubModel, h.subVarsLen]
    subFacsLen := by simp [addSubModel, h.subFacsLen]
    numbered := {
      range := by
        intro m k
        rw [show d.addSubModel.2.varLists = d.varLists from rfl, h.numbered.range m k]
        simp only [addSubModel, hget h.subVarsLen]
        by_cases hm : m = d.numModels
        · subst hm
          rw [if_pos rfl]
          constructor
          · rintro ⟨n, h1, h2⟩
            rw [List.getElem?_eq_none (by rw [h.subVarsLen]; exact Nat.le_refl _)] at h1
            exact absurd h1 (by simp)
          · rintro ⟨n, h1, h2⟩
            injection h1 with h1
            omega
        · rw [if_neg hm]
      unique := h.numbered.unique
      once := h.numbered.once }
    copies := fun f l s h1 h2 => ⟨Nat.lt_succ_of_lt (h.copies f l s h1 h2).1, (h.copies f l s h1 h2).2⟩
    emptyCopies := fun f l s h1 h2 => ⟨Nat.lt_succ_of_lt (h.emptyCopies f l s h1 h2).1, (h.emptyCopies f l s h1 h2).2⟩
    keys := h.keys
    idLt := by
      intro s hs
      obtain ⟨k, n, h1, h2, h3⟩ := h.idLt s hs
      refine ⟨k, n, h1, ?_, h3⟩
      simp only [addSubModel, hget h.subFacsLen]
      rw [if_neg (by have := hfm s hs; omega)]
      exact h2
    idOnce := h.idOnce
    count := by
      intro m n hn
      simp only [addSubModel, hget h.subFacsLen] at hn
      by_cases hm : m = d.numModels
      · subst hm
        rw [if_pos rfl] at hn
        injection hn with hn
        subst hn
        have e1 : d.facLists.flatten.countP (fun s => s.model = d.numModels) = 0 := by
          rw [List.countP_eq_zero]
          intro s hs
          have := hfm s hs
          simp only [decide_eq_true_eq]
          omega
        have e2 : (d.empty.flatMap Prod.snd).countP (fun s => s.model = d.numModels) = 0 := by
          rw [List.countP_eq_zero]
          intro s hs
          have := hem s hs
          simp only [decide_eq_true_eq]
          omega
        simp only [addSubModel]
        rw [e1, e2]
      · rw [if_neg hm] at hn
        exact h.count m n hn }

theorem copyOf_set {varLists : List (List SubVariable)} {v : Nat} {l : List SubVariable} (hl : varLists[v]? = some l) (m k : Nat) (m' k' v' : Nat) :
    CopyOf (varLists.set v (l ++ [⟨m, k⟩])) m' k' v' ↔ CopyOf varLists m' k' v' ∨ (m' = m ∧ k' = k ∧ v' = v) := by
  have hv : v < varLists.length := (List.getElem?_eq_some_iff.mp hl).1
  unfold CopyOf
  by_cases e : v = v'
  · subst e
    rw [List.getElem?_set_self hv, hl]
    constructor
    · rintro ⟨l', h1, h2⟩
      injection h1 with h1
      subst h1
      rcases List.mem_append.mp h2 with h2 | h2
      · exact Or.inl ⟨l, rfl, h2⟩
      · simp only [List.mem_singleton, SubVariable.mk.injEq] at h2
        exact Or.inr ⟨h2.1, h2.2, rfl⟩
    · rintro (⟨l', h1, h2⟩ | ⟨rfl, rfl, _⟩)
      · injection h1 with h1
        subst h1
        exact ⟨_, rfl, by simp [h2]⟩
      · exact ⟨_, rfl, by simp⟩
  · rw [List.getElem?_set_ne e]
    constructor
    · exact Or.inl
    · rintro (h | ⟨_, _, h⟩)
      · exact h
      · exact absurd h.symm e

theorem addSubVariable_spec {scopes : List (List Nat)} {d : Decomposition} (h : WF scopes d) {m v : Nat} (hm : m < d.numModels) (hv : v < d.numVars) :
    ∃ k l, d.numSubVars[m]? = some k ∧ d.varLists[v]? = some l ∧
      d.addSubVariable m v = some (k, { d with varLists := d.varLists.set v (l ++ [⟨m, k⟩]), numSubVars := d.numSubVars.set m (k + 1) }) ∧
      WF scopes { d with varLists := d.varLists.set v (l ++ [⟨m, k⟩]), numSubVars := d.numSubVars.set m (k + 1) } := by
  obtain ⟨k, hk⟩ : ∃ k, d.numSubVars[m]? = some k := ⟨_, List.getElem?_eq_getElem (by rw [h.subVarsLen]; exact hm)⟩
  obtain ⟨l, hl⟩ : ∃ l, d.varLists[v]? = some l := ⟨_, List.getElem?_eq_getElem (by rw [h.varsLen]; exact hv)⟩
  have hml : m < d.numSubVars.length := by rw [h.subVarsLen]; exact hm
  have hnew : ∀ v', ¬ CopyOf d.varLists m k v' := by
    intro v' hc
    obtain ⟨n, h1, h2⟩ := (h.numbered.range m k).mp ⟨v', hc⟩
    rw [hk] at h1
    injection h1 with h1
    omega
  have hmono : ∀ m' ids vars, CopiesOf d.varLists m' ids vars → CopiesOf (d.varLists.set v (l ++ [⟨m, k⟩])) m' ids vars := by
    intro m' ids vars hc
    exact hc.imp (fun a b hab => (copyOf_set hl m k m' a b).mpr (Or.inl hab))
  refine ⟨k, l, hk, hl, by simp only [addSubVariable, hl, hk], ?_⟩
  exact {
    varsLen := by simp [h.varsLen]
    facsLen := h.facsLen
    scopesLen := h.scopesLen
    subVarsLen := by simp [h.subVarsLen]
    subFacsLen := h.subFacsLen
    numbered := {
      range := by
        intro m' k'
        simp only [copyOf_set hl]
        by_cases e : m = m'
        · subst e
          rw [List.getElem?_set_self hml]
          constructor
          · rintro ⟨v', h1 | h1⟩
            · obtain ⟨n, h2, h3⟩ := (h.numbered.range m k').mp ⟨v', h1⟩
              rw [hk] at h2
              injection h2 with h2
              exact ⟨_, rfl, by omega⟩
            · exact ⟨_, rfl, by omega⟩
          · rintro ⟨n, h1, h2⟩
            injection h1 with h1
            by_cases e2 : k' = k
            · exact ⟨v, Or.inr ⟨rfl, e2, rfl⟩⟩
            · obtain ⟨v', h3⟩ := (h.numbered.range m k').mpr ⟨k, hk, by omega⟩
              exact ⟨v', Or.inl h3⟩
        · rw [List.getElem?_set_ne e, ← h.numbered.range m' k']
          constructor
          · rintro ⟨v', h1 | h1⟩
            · exact ⟨v', h1⟩
            · exact absurd h1.1.symm e
          · rintro ⟨v', h1⟩
            exact ⟨v', Or.inl h1⟩
      unique := by
        intro m' k' v1 v2 h1 h2
        rw [copyOf_set hl] at h1 h2
        rcases h1 with h1 | ⟨rfl, rfl, rfl⟩
        · rcases h2 with h2 | ⟨rfl, rfl, rfl⟩
          · exact h.numbered.unique m' k' v1 v2 h1 h2
          · exact absurd h1 (hnew v1)
        · rcases h2 with h2 | ⟨_, _, rfl⟩
          · exact absurd h2 (hnew v2)
          · rfl
      once := by
        intro l' hl'
        rcases List.mem_or_eq_of_mem_set hl' with h1 | h1
        · exact h.numbered.once l' h1
        · subst h1
          rw [List.nodup_append]
          refine ⟨h.numbered.once l (List.mem_of_getElem? hl), by simp, ?_⟩
          rintro a ha b hb rfl
          simp only [List.mem_singleton] at hb
          subst hb
          exact hnew v ⟨l, hl, ha⟩ }
    copies := by
      intro f l' s h1 h2
      obtain ⟨h3, vars, h4, h5⟩ := h.copies f l' s h1 h2
      exact ⟨h3, vars, h4, hmono _ _ _ h5⟩
    emptyCopies := by
      intro key l' s h1 h2
      obtain ⟨h3, h4⟩ := h.emptyCopies key l' s h1 h2
      exact ⟨h3, hmono _ _ _ h4⟩
    keys := h.keys
    idLt := h.idLt
    idOnce := h.idOnce
    count := h.count }

theorem addSubFactor_spec {scopes : List (List Nat)} {d : Decomposition} (h : WF scopes d) {m f : Nat} {ids vars : List Nat} (hm : m < d.numModels)
    (hf : scopes[f]? = some vars) (hc : CopiesOf d.varLists m ids vars) :
    ∃ k l, d.numSubFactors[m]? = some k ∧ d.facLists[f]? = some l ∧
      d.addSubFactor m f ids = some (k, { d with facLists := d.facLists.set f (l ++ [⟨m, some k, ids⟩]), numSubFactors := d.numSubFactors.set m (k + 1) }) ∧
      WF scopes { d with facLists := d.facLists.set f (l ++ [⟨m, some k, ids⟩]), numSubFactors := d.numSubFactors.set m (k + 1) } := by
  have hfl : f < d.facLists.length := by
    rw [h.facsLen, ← h.scopesLen]
    exact (List.getElem?_eq_some_iff.mp hf).1
  obtain ⟨k, hk⟩ : ∃ k, d.numSubFactors[m]? = some k := ⟨_, List.getElem?_eq_getElem (by rw [h.subFacsLen]; exact hm)⟩
  obtain ⟨l, hl⟩ : ∃ l, d.facLists[f]? = some l := ⟨_, List.getElem?_eq_getElem hfl⟩
  have hml : m < d.numSubFactors.length := by rw [h.subFacsLen]; exact hm
  have hp := flatten_set_perm (⟨m, some k, ids⟩ : SubFactor) hl
  have hget : ∀ (m' n : Nat), d.numSubFactors[m']? = some n → ∃ n' : Nat, (d.numSubFactors.set m (k + 1))[m']? = some n' ∧ n ≤ n' := by
    intro m' n hn
    by_cases e : m = m'
    · subst e
      rw [List.getElem?_set_self hml]
      rw [hk] at hn
      injection hn with hn
      exact ⟨_, rfl, by omega⟩
    · rw [List.getElem?_set_ne e]
      exact ⟨n, hn, Nat.le_refl _⟩
  refine ⟨k, l, hk, hl, by simp only [addSubFactor, hl, hk], ?_⟩
  exact {
    varsLen := h.varsLen
    facsLen := by simp [h.facsLen]
    scopesLen := h.scopesLen
    subVarsLen := h.subVarsLen
    subFacsLen := by simp [h.subFacsLen]
    numbered := h.numbered
    copies := by
      intro f' l' s h1 h2
      by_cases e : f = f'
      · subst e
        simp only [List.getElem?_set_self hfl, Option.some.injEq] at h1
        subst h1
        rcases List.mem_append.mp h2 with h2 | h2
        · exact h.copies f l s hl h2
        · simp only [List.mem_singleton] at h2
          subst h2
          exact ⟨hm, vars, hf, hc⟩
      · simp only [List.getElem?_set_ne e] at h1
        exact h.copies f' l' s h1 h2
    emptyCopies := h.emptyCopies
    keys := h.keys
    idLt := by
      intro s hs
      rcases List.mem_cons.mp (hp.mem_iff.mp hs) with h1 | h1
      · subst h1
        exact ⟨k, k + 1, rfl, List.getElem?_set_self hml, by omega⟩
      · obtain ⟨k', n, h2, h3, h4⟩ := h.idLt s h1
        obtain ⟨n', h5, h6⟩ := hget _ _ h3
        exact ⟨k', n', h2, h5, by omega⟩
    idOnce := by
      rw [(hp.map (fun s : SubFactor => (s.model, s.id))).nodup_iff, List.map_cons, List.nodup_cons]
      refine ⟨?_, h.idOnce⟩
      intro hmem
      obtain ⟨s, h1, h2⟩ := List.mem_map.mp hmem
      obtain ⟨k', n, h3, h4, h5⟩ := h.idLt s h1
      simp only [Prod.mk.injEq] at h2
      rw [h2.1, hk] at h4
      rw [h2.2] at h3
      injection h3 with h3
      injection h4 with h4
      omega
    count := by
      intro m' n hn
      simp only
      rw [hp.countP_eq, List.countP_cons]
      by_cases e : m = m'
      · subst e
        simp only [List.getElem?_set_self hml, Option.some.injEq] at hn
        have := h.count m k hk
        simp only [decide_true, if_true]
        omega
      · simp only [List.getElem?_set_ne e] at hn
        have := h.count m' n hn
        have e2 : (decide (m = m')) = false := by simp [e]
        simp only [e2, Bool.false_eq_true, if_false]
        omega }

theorem addEmptySubFactor_spec {scopes : List (List Nat)} {d : Decomposition} (h : WF scopes d) {m : Nat} {ids vars : List Nat} (hm : m < d.numModels)
    (hc : CopiesOf d.varLists m ids vars) :
    ∃ k, d.numSubFactors[m]? = some k ∧
      d.addEmptySubFactor m vars ids = some (k, { d with empty := pushEmpty vars ⟨m, none, ids⟩ d.empty, numSubFactors := d.numSubFactors.set m (k + 1) }) ∧
      WF scopes { d with empty := pushEmpty vars ⟨m, none, ids⟩ d.empty, numSubFactors := d.numSubFactors.set m (k + 1) } := by
  obtain ⟨k, hk⟩ : ∃ k, d.numSubFactors[m]? = some k := ⟨_, List.getElem?_eq_getElem (by rw [h.subFacsLen]; exact hm)⟩
  have hml : m < d.numSubFactors.length := by rw [h.subFacsLen]; exact hm
  have hp := pushEmpty_perm vars ⟨m, none, ids⟩ d.empty
  refine ⟨k, hk, by simp only [addEmptySubFactor, hk], ?_⟩
  exact {
    varsLen := h.varsLen
    facsLen := h.facsLen
    scopesLen := h.scopesLen
    subVarsLen := h.subVarsLen
    subFacsLen := by simp [h.subFacsLen]
    numbered := h.numbered
    copies := h.copies
    emptyCopies := by
      intro key l s h1 h2
      rcases mem_pushEmpty _ _ _ _ h1 with h1 | ⟨h3, l', h4, h5⟩
      · exact h.emptyCopies key l s h1 h2
      · simp only at h3 h4
        subst h3 h4
        rcases List.mem_append.mp h2 with h2 | h2
        · rcases h5 with h5 | h5
          · subst h5
            simp at h2
          · exact h.emptyCopies _ l' s h5 h2
        · simp only [List.mem_singleton] at h2
          subst h2
          exact ⟨hm, hc⟩
    keys := by
      simp only [pushEmpty_keys]
      split
      · exact h.keys
      · rename_i hn
        rw [List.nodup_append]
        refine ⟨h.keys, by simp, ?_⟩
        rintro a ha b hb rfl
        simp only [List.mem_singleton] at hb
        subst hb
        exact hn ha
    idLt := by
      intro s hs
      obtain ⟨k', n, h2, h3, h4⟩ := h.idLt s hs
      by_cases e : m = s.model
      · rw [← e, hk] at h3
        injection h3 with h3
        refine ⟨k', k + 1, h2, ?_, by omega⟩
        simp only [← e]
        exact List.getElem?_set_self hml
      · refine ⟨k', n, h2, ?_, h4⟩
        simp only [List.getElem?_set_ne e]
        exact h3
    idOnce := h.idOnce
    count := by
      intro m' n hn
      simp only
      rw [hp.countP_eq, List.countP_cons]
      by_cases e : m = m'
      · subst e
        simp only [List.getElem?_set_self hml, Option.some.injEq] at hn
        have := h.count m k hk
        simp only [decide_true, if_true]
        omega
      · simp only [List.getElem?_set_ne e] at hn
        have := h.count m' n hn
        have e2 : (decide (m = m')) = false := by simp [e]
        simp only [e2, Bool.false_eq_true, if_false]
        omega }

end Decomposition
end OpenGM
