import Verif.Lemmas.DecomposerBlocks
import Verif.Lemmas.FactorGraph
/-
decomposeIntoKFans.
-/
namespace OpenGM
namespace Decomposer
open Spec Decomposition
variable {n : Nat} {scopes : List (List Nat)}

/-- The flagged variables. -/
def Flagged (flags : List Bool) (v : Nat) : Prop := flags[v]? = some true

theorem setFlags_spec {n : Nat} : ∀ (vars : List Nat) (flags : List Bool), flags.length = n → (∀ v ∈ vars, v < n) →
    ∃ flags', vars.foldlM setFlag flags = some flags' ∧ flags'.length = n ∧ ∀ v, Flagged flags' v ↔ Flagged flags v ∨ v ∈ vars := by
  intro vars
  induction vars with
  | nil => intro flags hl _; exact ⟨flags, rfl, hl, by simp⟩
  | cons w vars ih =>
    intro flags hl hlt
    have hw : w < flags.length := by rw [hl]; exact hlt w (by simp)
    obtain ⟨f', e, h1, h2⟩ := ih (flags.set w true) (by simp [hl]) (fun v hv => hlt v (by simp [hv]))
    refine ⟨f', ?_, h1, ?_⟩
    · rw [List.foldlM_cons]
      simp only [setFlag, if_pos hw]
      exact e
    · intro v
      rw [h2, List.mem_cons]
      unfold Flagged
      by_cases e : w = v
      · subst e
        simp [List.getElem?_set_self hw]
      · rw [List.getElem?_set_ne e]
        have e' : ¬ v = w := fun h => e h.symm
        simp [e']

theorem flagFactors_spec {g : FG} (hg : g.Exact) : ∀ (fs : List Nat) (flags : List Bool), flags.length = g.numVars → (∀ f ∈ fs, f < g.scopes.length) →
    ∃ flags', fs.foldlM (flagFactor g) flags = some flags' ∧ flags'.length = g.numVars ∧
      ∀ v, Flagged flags' v ↔ Flagged flags v ∨ ∃ f ∈ fs, ∃ s, g.scopes[f]? = some s ∧ v ∈ s := by
  intro fs
  induction fs with
  | nil => intro flags hl _; exact ⟨flags, rfl, hl, by simp⟩
  | cons f fs ih =>
    intro flags hl hlt
    obtain ⟨s, hs⟩ : ∃ s, g.scopes[f]? = some s := ⟨_, List.getElem?_eq_getElem (hlt f (by simp))⟩
    obtain ⟨f1, e1, l1, h1⟩ := setFlags_spec s flags hl (hg.range s (List.mem_of_getElem? hs))
    obtain ⟨f2, e2, l2, h2⟩ := ih f1 l1 (fun f hf => hlt f (by simp [hf]))
    refine ⟨f2, ?_, l2, ?_⟩
    · rw [List.foldlM_cons]
      simp only [flagFactor, hs, e1]
      exact e2
    · intro v
      rw [h2, h1]
      constructor
      · rintro ((a | a) | ⟨f', a, b⟩)
        · exact Or.inl a
        · exact Or.inr ⟨f, by simp, s, hs, a⟩
        · exact Or.inr ⟨f', by simp [a], b⟩
      · rintro (a | ⟨f', a, s', b, c⟩)
        · exact Or.inl (Or.inl a)
        · rcases List.mem_cons.mp a with a | a
          · subst a
            rw [hs] at b
            injection b with b
            subst b
            exact Or.inl (Or.inr c)
          · exact Or.inr ⟨f', a, s', b, c⟩

theorem flagVars_spec {g : FG} (hg : g.Exact) : ∀ (inner : List Nat) (flags : List Bool), flags.length = g.numVars → (∀ v ∈ inner, v < g.numVars) →
    ∃ flags', inner.foldlM (flagVar g) flags = some flags' ∧ flags'.length = g.numVars ∧
      ∀ v, Flagged flags' v ↔ Flagged flags v ∨ v ∈ inner ∨ ∃ s ∈ g.scopes, v ∈ s ∧ ∃ w ∈ s, w ∈ inner := by
  intro inner
  induction inner with
  | nil => intro flags hl _; exact ⟨flags, rfl, hl, by simp⟩
  | cons w inner ih =>
    intro flags hl hlt
    have hw : w < flags.length := by rw [hl]; exact hlt w (by simp)
    obtain ⟨l, ha, _, hadj⟩ := hg.adj w (hlt w (by simp))
    have hset := setFlags_spec [w] flags hl (by simpa using hlt w (by simp))
    obtain ⟨f0, e0, l0, h0⟩ := hset
    have e0' : setFlag flags w = some f0 := by simpa using e0
    obtain ⟨f1, e1, l1, h1⟩ := flagFactors_spec hg l f0 l0 (by
      intro f hf
      obtain ⟨s, hs, _⟩ := (hadj f).mp hf
      exact (List.getElem?_eq_some_iff.mp hs).1)
    obtain ⟨f2, e2, l2, h2⟩ := ih f1 l1 (fun v hv => hlt v (by simp [hv]))
    refine ⟨f2, ?_, l2, ?_⟩
    · rw [List.foldlM_cons]
      simp only [flagVar, e0', ha, e1]
      exact e2
    · intro v
      rw [h2, h1, h0]
      constructor
      · rintro (((a | a) | ⟨f, a, s, b, c⟩) | (a | ⟨s, a, b, x, c, d⟩))
        · exact Or.inl a
        · simp only [List.mem_singleton] at a
          subst a
          exact Or.inr (Or.inl (by simp))
        · obtain ⟨s', a1, a2⟩ := (hadj f).mp a
          rw [b] at a1
          injection a1 with a1
          subst a1
          exact Or.inr (Or.inr ⟨s, List.mem_of_getElem? b, c, w, a2, by simp⟩)
        · exact Or.inr (Or.inl (by simp [a]))
        · exact Or.inr (Or.inr ⟨s, a, b, x, c, by simp [d]⟩)
      · rintro (a | a | ⟨s, a, b, x, c, d⟩)
        · exact Or.inl (Or.inl (Or.inl a))
        · rcases List.mem_cons.mp a with a | a
          · subst a
            exact Or.inl (Or.inl (Or.inr (by simp)))
          · exact Or.inr (Or.inl a)
        · rcases List.mem_cons.mp d with d | d
          · subst d
            obtain ⟨f, hf⟩ := List.getElem?_of_mem a
            exact Or.inl (Or.inr ⟨f, (hadj f).mpr ⟨s, hf, c⟩, s, hf, b⟩)
          · exact Or.inr (Or.inr ⟨s, a, b, x, c, d⟩)

open Classical in
theorem fanVars_spec {m : Nat} {flags : List Bool} (hfl : flags.length = n) : ∀ (vs : List Nat) (d : Decomposition) (subVars : List Nat), Reachable n scopes d → m < d.numModels →
    vs.Nodup → (∀ v ∈ vs, v < n) → subVars.length = n → (∀ v ∈ vs, varCopies d.varLists m v = 0) →
    ∃ d' subVars', fanVars m flags vs d subVars = some (d', subVars') ∧ Reachable n scopes d' ∧ subVars'.length = n ∧ OnlyIn m d d' ∧ d'.facLists = d.facLists ∧
      (∀ v, varCopies d'.varLists m v = if v ∈ vs ∧ Flagged flags v then 1 else varCopies d.varLists m v) ∧
      (∀ v ∈ vs, Flagged flags v → ∃ k : Nat, subVars'[v]? = some k ∧ CopyOf d'.varLists m k v) ∧
      (∀ v : Nat, v ∉ vs → subVars'[v]? = subVars[v]?) ∧
      (∀ k v, CopyOf d.varLists m k v → CopyOf d'.varLists m k v) := by
  intro vs
  induction vs with
  | nil =>
    intro d sv h _ _ _ hsv _
    exact ⟨d, sv, rfl, h, hsv, OnlyIn.refl m d, rfl, by simp, by simp, fun _ _ => rfl, fun _ _ h => h⟩
  | cons v vs ih =>
    intro d sv h hm hnd hlt hsv h0
    rw [List.nodup_cons] at hnd
    have hv : v < n := hlt v (by simp)
    obtain ⟨b, hb⟩ : ∃ b, flags[v]? = some b := ⟨_, List.getElem?_eq_getElem (by rw [hfl]; exact hv)⟩
    cases b with
    | false =>
      have hnf : ¬ Flagged flags v := by
        unfold Flagged
        rw [hb]
        simp
      obtain ⟨d2, sv2, e2, r2, l2, o2, fl2, v2, c2, s2, m2⟩ := ih d sv h hm hnd.2 (fun w hw => hlt w (by simp [hw])) hsv (fun w hw => h0 w (by simp [hw]))
      refine ⟨d2, sv2, by simp only [fanVars, hb, e2], r2, l2, o2, fl2, ?_, ?_, ?_, m2⟩
      · intro w
        rw [v2]
        by_cases e : w = v
        · subst e
          rw [if_neg (fun h => hnf h.2), if_neg (fun h => hnf h.2)]
        · simp [e]
      · intro w hw hf
        rcases List.mem_cons.mp hw with hw | hw
        · subst hw
          exact absurd hf hnf
        · exact c2 w hw hf
      · intro w hw
        exact s2 w (fun h => hw (by simp [h]))
    | true =>
      obtain ⟨k, d1, e1, r1, h1, h2, h3, h4, h4', _, h5, h6⟩ := addVar_step h hm hv
      have hvl : v < sv.length := by rw [hsv]; exact hv
      obtain ⟨d2, sv2, e2, r2, l2, o2, fl2, v2, c2, s2, m2⟩ := ih d1 (sv.set v k) r1 (by rw [h3]; exact hm) hnd.2 (fun w hw => hlt w (by simp [hw])) (by simp [hsv])
        (fun w hw => by
          rw [h5, h0 w (by simp [hw]), if_neg]
          rintro ⟨_, rfl⟩
          exact hnd.1 hw)
      refine ⟨d2, sv2, by simp only [fanVars, hb, e1, if_pos hvl, e2], r2, l2, (⟨h3, ?_, ?_⟩ : OnlyIn m d d1).trans o2, fl2.trans h4, ?_, ?_, ?_, ?_⟩
      · intro m' v' hne
        rw [h5, if_neg (fun h => hne h.1)]
        rfl
      · intro m' f _
        rw [h4]
      · intro w
        rw [v2, h5]
        by_cases e : w = v
        · subst e
          rw [if_neg (fun h => hnd.1 h.1), if_pos ⟨rfl, rfl⟩, h0 w (by simp), if_pos ⟨by simp, hb⟩]
        · simp [e]
      · intro w hw hf
        rcases List.mem_cons.mp hw with hw | hw
        · subst hw
          refine ⟨k, ?_, m2 k w ((h6 m k w).mpr (Or.inr ⟨rfl, rfl, rfl⟩))⟩
          rw [s2 w hnd.1, List.getElem?_set_self hvl]
        · exact c2 w hw hf
      · intro w hw
        rw [s2 w (fun h => hw (by simp [h])), List.getElem?_set_ne]
        rintro rfl
        exact hw (by simp)
      · intro k' w hc
        exact m2 k' w ((h6 m k' w).mpr (Or.inl hc))

/-- The factors of the fan. -/
def FanFactor (m : Nat) (inner : List Nat) (included : Nat → Prop) : List Nat → Prop
  | [] => m = 0
  | [a] => included a
  | [a, b] => a ∈ inner ∨ b ∈ inner
  | _ => False

open Classical in
theorem fanFactor_spec {m f : Nat} {inner : List Nat} {flags : List Bool} {sv : List Nat} {vars : List Nat} {d : Decomposition} (h : Reachable n scopes d)
    (hm : m < d.numModels) (hf : scopes[f]? = some vars) (hfl : flags.length = n) (hlt : ∀ v ∈ vars, v < n)
    (hsv : ∀ v, v < n → Flagged flags v → ∃ k : Nat, sv[v]? = some k ∧ CopyOf d.varLists m k v)
    (hin : ∀ a b, vars = [a, b] → (a ∈ inner ∨ b ∈ inner) → Flagged flags a ∧ Flagged flags b) :
    if vars.length ≤ 2 then
      ∃ d', fanFactor m inner flags sv d f vars = .ok () d' ∧ Reachable n scopes d' ∧ OnlyIn m d d' ∧ d'.varLists = d.varLists ∧
        (∀ f', facCopies d'.facLists m f' = facCopies d.facLists m f' + if f' = f ∧ FanFactor m inner (Flagged flags) vars then 1 else 0)
    else fanFactor m inner flags sv d f vars = .throw d := by
  have hadd : ∀ ks, CopiesOf d.varLists m ks vars → ∀ c : Prop, c → ∃ k d', d.addSubFactor m f ks = some (k, d') ∧ Reachable n scopes d' ∧ OnlyIn m d d' ∧ d'.varLists = d.varLists ∧
      (∀ f', facCopies d'.facLists m f' = facCopies d.facLists m f' + if f' = f ∧ c then 1 else 0) := by
    intro ks hc c hcp
    obtain ⟨k, d1, e1, r1, _, _, m1, v1, nv1, fc1, _⟩ := addFac_step h hm hf hc
    refine ⟨k, d1, e1, r1, onlyIn_addFac m1 v1 fc1, v1, ?_⟩
    intro f'
    rw [fc1]
    simp [hcp]
  have hno : ∀ c : Prop, ¬ c → ∀ f', facCopies d.facLists m f' = facCopies d.facLists m f' + if f' = f ∧ c then 1 else 0 := by
    intro c hc f'
    simp [hc]
  match vars, hf, hlt, hin, hadd with
  | [], hf, hlt, hin, hadd =>
    rw [if_pos (by simp)]
    by_cases e : m = 0
    · obtain ⟨k, d1, e1, rest⟩ := hadd [] .nil (m = 0) e
      exact ⟨d1, by rw [fanFactor, if_pos e, e1], rest⟩
    · exact ⟨d, by rw [fanFactor, if_neg e], h, OnlyIn.refl m d, rfl, hno _ e⟩
  | [a], hf, hlt, hin, hadd =>
    rw [if_pos (by simp)]
    obtain ⟨x, hx⟩ : ∃ x, flags[a]? = some x := ⟨_, List.getElem?_eq_getElem (by rw [hfl]; exact hlt a (by simp))⟩
    cases x with
    | false =>
      refine ⟨d, by simp only [fanFactor, hx], h, OnlyIn.refl m d, rfl, hno _ ?_⟩
      show ¬ Flagged flags a
      unfold Flagged
      rw [hx]
      simp
    | true =>
      obtain ⟨k, hk, hc⟩ := hsv a (hlt a (by simp)) hx
      obtain ⟨_, d1, e1, rest⟩ := hadd [k] (.cons hc .nil) (Flagged flags a) hx
      exact ⟨d1, by simp only [fanFactor, hx, hk, e1], rest⟩
  | [a, b], hf, hlt, hin, hadd =>
    rw [if_pos (by simp)]
    obtain ⟨x, hx⟩ : ∃ x, flags[a]? = some x := ⟨_, List.getElem?_eq_getElem (by rw [hfl]; exact hlt a (by simp))⟩
    obtain ⟨y, hy⟩ : ∃ y, flags[b]? = some y := ⟨_, List.getElem?_eq_getElem (by rw [hfl]; exact hlt b (by simp))⟩
    by_cases hi : a ∈ inner ∨ b ∈ inner
    · obtain ⟨ha, hb⟩ := hin a b rfl hi
      obtain ⟨ka, hka, hca⟩ := hsv a (hlt a (by simp)) ha
      obtain ⟨kb, hkb, hcb⟩ := hsv b (hlt b (by simp)) hb
      obtain ⟨_, d1, e1, rest⟩ := hadd [ka, kb] (.cons hca (.cons hcb .nil)) (a ∈ inner ∨ b ∈ inner) hi
      unfold Flagged at ha hb
      exact ⟨d1, by simp only [fanFactor, ha, hb, if_pos hi, hka, hkb, e1], rest⟩
    · refine ⟨d, ?_, h, OnlyIn.refl m d, rfl, hno _ hi⟩
      cases x with
      | false => simp only [fanFactor, hx]
      | true =>
        cases y with
        | false => simp only [fanFactor, hx, hy]
        | true => simp only [fanFactor, hx, hy, if_neg hi]
  | a :: b :: c :: rest, hf, hlt, hin, hadd =>
    rw [if_neg (by simp)]
    rfl

open Classical in
theorem fanFactors_spec {m : Nat} {inner : List Nat} {flags : List Bool} {sv : List Nat} (hsc : ∀ vars ∈ scopes, ∀ v ∈ vars, v < n) (hfl : flags.length = n)
    (hin : ∀ a b, [a, b] ∈ scopes → (a ∈ inner ∨ b ∈ inner) → Flagged flags a ∧ Flagged flags b) :
    ∀ (todo : List (List Nat)) (i : Nat) (d : Decomposition), (∀ j : Nat, todo[j]? = scopes[i + j]?) → Reachable n scopes d → m < d.numModels →
    (∀ v, v < n → Flagged flags v → ∃ k : Nat, sv[v]? = some k ∧ CopyOf d.varLists m k v) →
    ((∀ vars ∈ todo, vars.length ≤ 2) → ∃ d', fanFactors m inner flags sv (todo.zipIdx i) d = .ok () d' ∧ Reachable n scopes d' ∧ OnlyIn m d d' ∧ d'.varLists = d.varLists ∧
      (∀ f, facCopies d'.facLists m f = facCopies d.facLists m f +
        if i ≤ f ∧ ∃ vars, scopes[f]? = some vars ∧ FanFactor m inner (Flagged flags) vars then 1 else 0)) ∧
    ((∃ vars ∈ todo, 2 < vars.length) → ∃ d', fanFactors m inner flags sv (todo.zipIdx i) d = .throw d') := by
  intro todo
  induction todo with
  | nil =>
    intro i d htodo h _ _
    refine ⟨fun _ => ⟨d, rfl, h, OnlyIn.refl m d, rfl, ?_⟩, by simp⟩
    intro f
    rw [if_neg, Nat.add_zero]
    rintro ⟨h1, vars, h2, _⟩
    have := htodo (f - i)
    rw [show i + (f - i) = f by omega, h2] at this
    simp at this
  | cons vars todo ih =>
    intro i d htodo h hm hsv
    have hi : scopes[i]? = some vars := by
      have := htodo 0
      simp only [List.getElem?_cons_zero, Nat.add_zero] at this
      exact this.symm
    have htodo' : ∀ j : Nat, todo[j]? = scopes[(i + 1) + j]? := by
      intro j
      have := htodo (j + 1)
      rw [List.getElem?_cons_succ, show i + (j + 1) = i + 1 + j by omega] at this
      exact this
    have step := fanFactor_spec (inner := inner) (sv := sv) h hm hi hfl (hsc vars (List.mem_of_getElem? hi)) hsv
      (by rintro a b rfl hab; exact hin a b (List.mem_of_getElem? hi) hab)
    by_cases hlen : vars.length ≤ 2
    · rw [if_pos hlen] at step
      obtain ⟨d1, e1, r1, o1, v1, f1⟩ := step
      obtain ⟨ok, bad⟩ := ih (i + 1) d1 htodo' r1 (by rw [o1.models]; exact hm) (by rw [v1]; exact hsv)
      constructor
      · intro hall
        obtain ⟨d2, e2, r2, o2, v2, f2⟩ := ok (fun w hw => hall w (by simp [hw]))
        refine ⟨d2, by simp only [List.zipIdx_cons, fanFactors, e1, e2], r2, o1.trans o2, v2.trans v1, ?_⟩
        intro f
        rw [f2, f1, Nat.add_assoc]
        congr 1
        by_cases e : f = i
        · subst e
          rw [if_neg (by omega : ¬ (f + 1 ≤ f ∧ _)), Nat.add_zero]
          congr 1
          simp only [hi, Option.some.injEq, exists_eq_left', Nat.le_refl, true_and]
        · rw [if_neg (fun h => e h.1), Nat.zero_add]
          congr 1
          rw [show (i ≤ f) = (i + 1 ≤ f) from propext ⟨fun _ => by omega, fun _ => by omega⟩]
      · rintro ⟨w, hw, hwl⟩
        rcases List.mem_cons.mp hw with hw | hw
        · subst hw
          omega
        · obtain ⟨d', e⟩ := bad ⟨w, hw, hwl⟩
          exact ⟨d', by simp only [List.zipIdx_cons, fanFactors, e1, e]⟩
    · rw [if_neg hlen] at step
      refine ⟨fun hall => absurd (hall vars (by simp)) hlen, fun _ => ⟨d, by simp only [List.zipIdx_cons, fanFactors, step]⟩⟩

/-- The variables of a fan. -/
def Included (g : FG) (inner : List Nat) (v : Nat) : Prop := v ∈ inner ∨ ∃ s ∈ g.scopes, v ∈ s ∧ ∃ w ∈ s, w ∈ inner

open Classical in
theorem fanModels_spec {g : FG} (hg : g.Exact) : ∀ (as : List (List Nat)) (d : Decomposition), Reachable g.numVars g.scopes d → (∀ inner ∈ as, ∀ v ∈ inner, v < g.numVars) →
    ((∀ vars ∈ g.scopes, vars.length ≤ 2) → ∃ d', fanModels g as d = .ok () d' ∧ Reachable g.numVars g.scopes d' ∧ d'.numModels = d.numModels + as.length ∧
        (∀ m v, m < d.numModels → varCopies d'.varLists m v = varCopies d.varLists m v) ∧ (∀ m f, m < d.numModels → facCopies d'.facLists m f = facCopies d.facLists m f) ∧
        (∀ (j : Nat) (inner : List Nat), as[j]? = some inner → (∀ v, varCopies d'.varLists (d.numModels + j) v = if Included g inner v then 1 else 0) ∧
          ∀ f, facCopies d'.facLists (d.numModels + j) f = if ∃ vars, g.scopes[f]? = some vars ∧ FanFactor (d.numModels + j) inner (Included g inner) vars then 1 else 0)) ∧
    ((∃ vars ∈ g.scopes, 2 < vars.length) → as ≠ [] → ∃ d', fanModels g as d = .throw d') := by
  intro as
  induction as with
  | nil =>
    intro d h _
    exact ⟨fun _ => ⟨d, rfl, h, rfl, fun _ _ _ => rfl, fun _ _ _ => rfl, by simp⟩, fun _ h => absurd rfl h⟩
  | cons inner as ih =>
    intro d h hlt
    obtain ⟨flags, ef, lf, hf⟩ := flagVars_spec hg inner (List.replicate g.numVars false) (by simp) (hlt inner (by simp))
    have hF : ∀ v, Flagged flags v ↔ Included g inner v := by
      intro v
      rw [hf]
      unfold Flagged Included
      rw [List.getElem?_replicate]
      constructor
      · rintro (a | a)
        · split at a <;> simp at a
        · exact a
      · exact Or.inr
    obtain ⟨r0, hm0, M0, f0, v0⟩ := newModel (S := 0) h
    obtain ⟨d1, sv, e1, r1, l1, o1, fl1, v1, c1, _, _⟩ := fanVars_spec (m := d.numModels) lf (List.range g.numVars) _ (List.replicate g.numVars 0) r0 hm0 List.nodup_range
      (fun v hv => List.mem_range.mp hv) (by simp) (fun v _ => v0 v)
    have step := fanFactors_spec (m := d.numModels) (inner := inner) (flags := flags) (sv := sv) hg.range lf
      (by
        intro a b hab h2
        rw [hF, hF]
        constructor
        · rcases h2 with h2 | h2
          · exact Or.inl h2
          · exact Or.inr ⟨[a, b], hab, by simp, b, by simp, h2⟩
        · rcases h2 with h2 | h2
          · exact Or.inr ⟨[a, b], hab, by simp, a, by simp, h2⟩
          · exact Or.inl h2) g.scopes 0 d1 (by simp) r1 (by rw [o1.models]; exact hm0)
      (fun v hv hv' => c1 v (List.mem_range.mpr hv) hv')
    have hfst : d.addSubModel.1 = d.numModels := rfl
    constructor
    · intro hall
      obtain ⟨d2, e2, r2, o2, v2, f2⟩ := step.1 hall
      obtain ⟨d3, e3, r3, n3, v3, f3, g3⟩ := (ih d2 r2 (fun x hx => hlt x (by simp [hx]))).1 hall
      have o := o1.trans o2
      have hn2 : d2.numModels = d.numModels + 1 := o.models
      refine ⟨d3, by simp only [fanModels, hfst, ef, e1, e2, e3], r3, by rw [n3, hn2, List.length_cons]; omega, ?_, ?_, ?_⟩
      · intro m v hm
        rw [v3 m v (by omega), o.vars m v (by omega)]
        rfl
      · intro m f hm
        rw [f3 m f (by omega), o.facs m f (by omega)]
        rfl
      · intro j x hj
        cases j with
        | zero =>
          simp only [List.getElem?_cons_zero, Option.some.injEq] at hj
          subst hj
          constructor
          · intro v
            rw [Nat.add_zero, v3 _ v (by omega), v2, v1, v0]
            by_cases hv : v < g.numVars
            · simp only [List.mem_range, hv, true_and, hF]
            · rw [if_neg (fun h => hv (List.mem_range.mp h.1)), if_neg]
              rintro (a | ⟨s, a, b, _⟩)
              · exact hv (hlt inner (by simp) v a)
              · exact hv (hg.range s a v b)
          · intro f
            rw [Nat.add_zero, f3 _ f (by omega), f2, fl1, f0, Nat.zero_add]
            have : Flagged flags = Included g inner := funext fun v => propext (hF v)
            simp only [Nat.zero_le, true_and, this]
        | succ j =>
          simp only [List.getElem?_cons_succ] at hj
          have := g3 j x hj
          rw [show d2.numModels + j = d.numModels + (j + 1) by omega] at this
          exact this
    · intro hbad _
      obtain ⟨d2, e2⟩ := step.2 hbad
      exact ⟨d2, by simp only [fanModels, hfst, ef, e1, e2]⟩

theorem fanSet_spec {n : Nat} : ∀ (i c : Nat) (s : List Nat), c < n → (∀ v ∈ s, v < n) →
    (∀ v, v ∈ (fanSet n i c s).1 ↔ v ∈ s ∨ ∃ j, j < i ∧ v = (c + j) % n) ∧ (∀ v ∈ (fanSet n i c s).1, v < n) ∧ (fanSet n i c s).2 = (c + i) % n := by
  intro i
  induction i with
  | zero =>
    intro c s hc hs
    exact ⟨by simp [fanSet], hs, by simp [fanSet, Nat.mod_eq_of_lt hc]⟩
  | succ i ih =>
    intro c s hc hs
    have hn : 0 < n := by omega
    obtain ⟨h1, h2, h3⟩ := ih ((c + 1) % n) (setInsert c s) (Nat.mod_lt _ hn) (by
      intro v hv
      rcases (mem_setInsert c v s).mp hv with hv | hv
      · omega
      · exact hs v hv)
    refine ⟨?_, h2, ?_⟩
    · intro v
      rw [fanSet, h1, mem_setInsert]
      have hmod : ∀ j, ((c + 1) % n + j) % n = (c + (j + 1)) % n := by
        intro j
        rw [Nat.mod_add_mod]
        congr 1
        omega
      constructor
      · rintro ((a | a) | ⟨j, a, b⟩)
        · exact Or.inr ⟨0, by omega, by rw [a, Nat.add_zero, Nat.mod_eq_of_lt hc]⟩
        · exact Or.inl a
        · exact Or.inr ⟨j + 1, by omega, by rw [b, hmod]⟩
      · rintro (a | ⟨j, a, b⟩)
        · exact Or.inl (Or.inr a)
        · cases j with
          | zero => exact Or.inl (Or.inl (by rw [b, Nat.add_zero, Nat.mod_eq_of_lt hc]))
          | succ j => exact Or.inr ⟨j, by omega, by rw [b, hmod]⟩
    · rw [fanSet, h3, Nat.mod_add_mod]
      congr 1
      omega

theorem fanSets_spec {n k : Nat} : ∀ (M c : Nat), c < n →
    (fanSets n k M c).length = M ∧ ∀ (j : Nat) (s : List Nat), (fanSets n k M c)[j]? = some s →
      (∀ v ∈ s, v < n) ∧ ∀ v, v ∈ s ↔ ∃ i, i < k ∧ v = (c + j * k + i) % n := by
  intro M
  induction M with
  | zero => intro c _; exact ⟨rfl, by simp [fanSets]⟩
  | succ M ih =>
    intro c hc
    obtain ⟨h1, h2, h3⟩ := fanSet_spec k c [] hc (by simp)
    have hn : 0 < n := by omega
    obtain ⟨a1, a2⟩ := ih ((fanSet n k c []).2) (by rw [h3]; exact Nat.mod_lt _ hn)
    refine ⟨by simp [fanSets, a1], ?_⟩
    intro j s hj
    cases j with
    | zero =>
      simp only [fanSets, List.getElem?_cons_zero, Option.some.injEq] at hj
      subst hj
      refine ⟨h2, ?_⟩
      intro v
      rw [h1]
      simp
    | succ j =>
      simp only [fanSets, List.getElem?_cons_succ] at hj
      obtain ⟨b1, b2⟩ := a2 j s hj
      refine ⟨b1, ?_⟩
      intro v
      rw [b2, h3]
      have : ∀ i, ((c + k) % n + j * k + i) % n = (c + (j + 1) * k + i) % n := by
        intro i
        rw [Nat.add_assoc, Nat.mod_add_mod]
        congr 1
        rw [Nat.add_mul]
        omega
      simp only [this]

end Decomposer
end OpenGM
