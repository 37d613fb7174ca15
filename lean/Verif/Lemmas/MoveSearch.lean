import Verif.Lemmas.Movemaker
/-
The search loops of Movemaker::moveOptimally and moveOptimallyWithAllLabelsChanging.
-/
namespace OpenGM
open Spec

variable {V : Type}

namespace Movemaker

/-- One step of the search: keep the better of the current best and candidate `c`. -/
def bestStep (bop : V → V → Bool) (E : List Nat → V) (r : List Nat → List Nat) (s : V × List Nat) (c : List Nat) :
    V × List Nat := if bop (E c) s.1 then (E c, r c) else s

theorem best_spec (bop : V → V → Bool) (hso : StrictOrder bop) (E : List Nat → V) (r : List Nat → List Nat)
    (e0 : V) : ∀ (l : List (List Nat)) (s : V × List Nat) (done : List (List Nat)),
      (∀ c ∈ done, bop (E c) s.1 = false) → (s.1 = e0 ∨ bop s.1 e0 = true ∧ ∃ c ∈ done, s = (E c, r c)) →
      (∀ c ∈ done ++ l, bop (E c) (l.foldl (bestStep bop E r) s).1 = false) ∧
      ((l.foldl (bestStep bop E r) s).1 = e0 ∨ bop (l.foldl (bestStep bop E r) s).1 e0 = true ∧
        ∃ c ∈ done ++ l, l.foldl (bestStep bop E r) s = (E c, r c))
  | [], s, done, h1, h2 => by simpa using ⟨h1, h2⟩
  | c :: l, s, done, h1, h2 => by
    have key := best_spec bop hso E r e0 l (bestStep bop E r s c) (done ++ [c])
      (by
        intro d hd
        unfold bestStep
        simp only [List.mem_append, List.mem_singleton] at hd
        by_cases hb : bop (E c) s.1 = true
        · rw [if_pos hb]
          rcases hd with hd | rfl
          · by_contra hcon
            have := hso.trans _ _ _ (by simpa using hcon) hb
            rw [h1 d hd] at this; simp at this
          · exact hso.irrefl _
        · rw [if_neg hb]
          rcases hd with hd | rfl
          · exact h1 d hd
          · simpa using hb)
      (by
        unfold bestStep
        by_cases hb : bop (E c) s.1 = true
        · rw [if_pos hb]
          refine Or.inr ⟨?_, c, by simp, rfl⟩
          rcases h2 with h2 | h2
          · rw [← h2]; exact hb
          · exact hso.trans _ _ _ hb h2.1
        · rw [if_neg hb]
          rcases h2 with h2 | ⟨h2, d, hd, e⟩
          · exact Or.inl h2
          · exact Or.inr ⟨h2, d, by simp [hd], e⟩)
    simpa using key

theorem searchLoop_chain (o : InvOperation V) (bop : V → V → Bool) (gm : GM V) (fs vars : List Nat)
    (incr : List Nat → Option (Option (List Nat))) (g r : List Nat → List Nat) (E : List Nat → V) (next : List Nat → Option (List Nat)) :
    ∀ (l : List (List Nat)) (t : List Nat) (fuel : Nat) (best : V) (bs : List Nat),
      (∀ c ∈ t :: l, incr (g c) = some ((next c).map g)) →
      (∀ c ∈ t :: l, evaluateFactors o gm (g c) fs o.neutral = some (E c)) →
      (∀ c ∈ t :: l, readAll (g c) vars = some (r c)) →
      List.IsChain (fun a b => next a = some b) (t :: l) →
      (∀ u, (t :: l).getLast? = some u → next u = none) → l.length < fuel →
      ∃ u ∈ t :: l, searchLoop o bop gm fs vars incr fuel (g t) best bs =
        some (((t :: l).foldl (bestStep bop E r) (best, bs)).1, ((t :: l).foldl (bestStep bop E r) (best, bs)).2, g u)
  | l, t, 0, _, _, _, _, _, _, _, h => by simp at h
  | l, t, fuel + 1, best, bs, hi, hE, hr, hc, hl, hf => by
    have hstep : (if bop (E t) best = true then Option.map (fun s => (E t, s)) (readAll (g t) vars) else some (best, bs)) =
        some (bestStep bop E r (best, bs) t) := by
      rw [hr t (by simp)]
      unfold bestStep
      split <;> simp
    unfold searchLoop
    rw [hE t (by simp)]
    simp only
    rw [hstep]
    simp only
    rw [hi t (by simp)]
    cases l with
    | nil =>
      rw [hl t (by simp)]
      exact ⟨t, by simp, by simp⟩
    | cons u l =>
      rw [List.isChain_cons_cons] at hc
      rw [hc.1]
      simp only [Option.map_some]
      obtain ⟨w, hw, e⟩ := searchLoop_chain o bop gm fs vars incr g r E next l u fuel (bestStep bop E r (best, bs) t).1
        (bestStep bop E r (best, bs) t).2
        (fun c hc => hi c (by simp at hc ⊢; tauto)) (fun c hc => hE c (by simp at hc ⊢; tauto))
        (fun c hc => hr c (by simp at hc ⊢; tauto)) hc.2 (fun w hw => hl w (by simpa using hw)) (by simp at hf; omega)
      exact ⟨w, by simp at hw ⊢; tauto, by rw [e]; simp⟩

theorem searchLoop_spec (o : InvOperation V) (bop : V → V → Bool) (gm : GM V) (fs vars : List Nat)
    (incr : List Nat → Option (Option (List Nat))) (g r : List Nat → List Nat) (E : List Nat → V) (shape : List Nat)
    (hp : Positive shape) (fuel : Nat) (best : V) (bs : List Nat)
    (hi : ∀ c, InShape shape c → incr (g c) = some ((odoNext shape c).map g))
    (hE : ∀ c, InShape shape c → evaluateFactors o gm (g c) fs o.neutral = some (E c))
    (hr : ∀ c, InShape shape c → readAll (g c) vars = some (r c)) (hf : shape.prod ≤ fuel) :
    ∃ u, InShape shape u ∧ searchLoop o bop gm fs vars incr fuel (g (List.replicate shape.length 0)) best bs =
        some (((allTuples shape).foldl (bestStep bop E r) (best, bs)).1,
          ((allTuples shape).foldl (bestStep bop E r) (best, bs)).2, g u) := by
  obtain ⟨rest, hrest⟩ := zeros_head shape hp
  obtain ⟨h1, h2⟩ := odo_chain shape hp
  have hlen := length_allTuples shape
  have hmem : ∀ c, c ∈ allTuples shape → InShape shape c := fun c hc => (mem_allTuples shape c).mp hc
  rw [hrest] at h1 h2 hlen hmem ⊢
  obtain ⟨u, hu, e⟩ := searchLoop_chain o bop gm fs vars incr g r E (odoNext shape) rest _ fuel best bs
    (fun c hc => hi c (hmem c hc)) (fun c hc => hE c (hmem c hc)) (fun c hc => hr c (hmem c hc)) h1 h2
    (by simp at hlen; omega)
  exact ⟨u, hmem u hu, e⟩

theorem increment_spec (nl : List Nat) : ∀ (vars x t : List Nat), vars ≠ [] → vars.Nodup →
    (∀ v ∈ vars, v < x.length) → nl.length = x.length → InShape (restrict nl vars) t →
    increment nl vars (fill x vars t) = some ((odoNext (restrict nl vars) t).map (fill x vars))
  | [], _, _, h, _, _, _, _ => absurd rfl h
  | v :: vs, x, [], _, _, _, _, hin => by simp [restrict, InShape] at hin
  | v :: vs, x, d :: t, _, hn, hr, hl, hin => by
    have hn' := List.nodup_cons.mp hn
    have hv := hr v (by simp)
    have hnl : nl[v]? = some (nl.getD v 0) := by simp [List.getElem?_eq_getElem (by omega : v < nl.length)]
    simp only [restrict, List.map_cons, InShape] at hin
    obtain ⟨k, hk⟩ : ∃ k, nl.getD v 0 = k + 1 := ⟨nl.getD v 0 - 1, by omega⟩
    unfold increment
    simp only [fill]
    rw [List.getElem?_set_self (by simpa using hv), hnl, hk]
    simp only [restrict, List.map_cons, odoNext, hk]
    by_cases hd : d < k
    · rw [if_pos hd, if_pos (by omega)]
      simp [fill]
    · rw [if_neg hd, if_neg (by omega)]
      cases vs with
      | nil => simp [odoNext]
      | cons w vs =>
        simp only
        have := increment_spec nl (w :: vs) (x.set v 0) t (by simp) hn'.2
          (fun u hu => by simpa using hr u (by simp at hu ⊢; tauto)) (by simpa using hl) hin.2
        rw [fill_set _ _ _ _ _ hn'.1] at this
        rw [List.set_set, this]
        simp only [restrict, Option.map_map, Option.some.injEq]
        congr 1
        funext u
        simp [fill, fill_set _ _ _ _ _ hn'.1]

/-- The `d`-th label different from `s`. -/
def skip (s d : Nat) : Nat := if d < s then d else d + 1

theorem incrementChanging_spec (nl st : List Nat) : ∀ (vars x t : List Nat), vars ≠ [] → vars.Nodup →
    (∀ v ∈ vars, v < x.length) → nl.length = x.length → st.length = x.length →
    (∀ v ∈ vars, st.getD v 0 < nl.getD v 0) → InShape ((restrict nl vars).map (· - 1)) t →
    incrementChanging nl st vars (fill x vars (List.zipWith skip (restrict st vars) t)) =
      some ((odoNext ((restrict nl vars).map (· - 1)) t).map (fun u => fill x vars (List.zipWith skip (restrict st vars) u)))
  | [], _, _, h, _, _, _, _, _, _ => absurd rfl h
  | v :: vs, x, [], _, _, _, _, _, _, hin => by simp [restrict, InShape] at hin
  | v :: vs, x, d :: t, _, hn, hr, hl, hst, hlt, hin => by
    have hn' := List.nodup_cons.mp hn
    have hv := hr v (by simp)
    have hnl : nl[v]? = some (nl.getD v 0) := by simp [List.getElem?_eq_getElem (by omega : v < nl.length)]
    have hsv : st[v]? = some (st.getD v 0) := by simp [List.getElem?_eq_getElem (by omega : v < st.length)]
    have hs := hlt v (by simp)
    simp only [restrict, List.map_cons, InShape] at hin
    obtain ⟨k, hk⟩ : ∃ k, nl.getD v 0 = k + 1 := ⟨nl.getD v 0 - 1, by omega⟩
    rw [hk] at hs hin
    unfold incrementChanging
    simp only [fill, restrict, List.map_cons, List.zipWith_cons_cons]
    rw [List.getElem?_set_self (by simpa using hv), hnl, hsv, hk]
    simp only [odoNext]
    generalize st.getD v 0 = s at hs ⊢
    have hd : d < k := by simpa using hin.1
    by_cases hd1 : d + 1 < k + 1 - 1
    · rw [if_pos hd1]
      have hk1 : d + 1 < k := by simpa using hd1
      by_cases c1 : skip s d < k ∧ skip s d + 1 ≠ s
      · rw [if_pos c1]
        have : skip s d + 1 = skip s (d + 1) := by unfold skip at c1 ⊢; split_ifs at c1 ⊢ <;> omega
        simp [fill, this]
      · rw [if_neg c1]
        have hds : d + 1 = s := by unfold skip at c1; split_ifs at c1 <;> omega
        have h2 : skip s d = d := by unfold skip; rw [if_pos (by omega)]
        rw [h2, if_pos (by omega)]
        have : d + 2 = skip s (d + 1) := by unfold skip; rw [if_neg (by omega)]
        simp [fill, this]
    · rw [if_neg hd1]
      have hk1 : d + 1 = k := by
        have : ¬ d + 1 < k := by simpa using hd1
        omega
      have c1 : ¬ (skip s d < k ∧ skip s d + 1 ≠ s) := by unfold skip; split_ifs <;> omega
      have c2 : ¬ (skip s d < k ∧ skip s d + 1 < k) := by unfold skip; split_ifs <;> omega
      rw [if_neg c1, if_neg c2]
      have h0 : (if s = 0 then 1 else 0) = skip s 0 := by unfold skip; split_ifs <;> omega
      cases vs with
      | nil => simp [odoNext]
      | cons w vs =>
        simp only
        have := incrementChanging_spec nl st (w :: vs) (x.set v (skip s 0)) t (by simp) hn'.2
          (fun u hu => by simpa using hr u (by simp at hu ⊢; tauto)) (by simpa using hl) (by simpa using hst)
          (fun u hu => hlt u (by simp at hu ⊢; tauto)) hin.2
        rw [fill_set _ _ _ _ _ hn'.1] at this
        rw [List.set_set, h0]
        simp only [restrict] at this
        rw [this]
        simp only [Option.map_map, Option.some.injEq]
        congr 1
        funext u
        simp [fill, fill_set _ _ _ _ _ hn'.1]

end Movemaker
end OpenGM
