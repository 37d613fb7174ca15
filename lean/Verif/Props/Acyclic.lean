import Verif.Lemmas.Search
import Verif.Lemmas.FactorGraph
import Verif.Model.Acyclic
import Verif.Spec.FactorGraph
import Verif.Props.Connectivity
/-
C12: isAcyclic decides whether the bipartite variable-factor graph has a cycle.
-/
namespace OpenGM.FG
open Spec Search

/-- What the two father arrays record. -/
def fatherOf (g : FG) (ff vf : List Nat) : Nat ⊕ Nat → Father (Nat ⊕ Nat)
  | .inl v => match vf[v]? with
    | none => .unvisited
    | some f => if f = g.scopes.length then .unvisited else .of (.inr f)
  | .inr f => match ff[f]? with
    | none => .unvisited
    | some v => if v = g.numVars then .unvisited else if v = g.numVars + 1 then .root else .of (.inl v)

theorem fatherOf_setV (g : FG) (ff vf : List Nat) (v f : Nat) (hv : v < vf.length) (hf : f < g.scopes.length) :
    fatherOf g ff (vf.set v f) = Function.update (fatherOf g ff vf) (.inl v) (.of (.inr f)) := by
  funext x
  rcases x with w | w
  · by_cases e : w = v
    · subst e
      simp only [fatherOf, Function.update_self, List.getElem?_set_self hv]
      rw [if_neg (by omega)]
    · rw [Function.update_of_ne (by simpa using e)]
      simp only [fatherOf, List.getElem?_set_ne (fun h => e h.symm)]
  · rw [Function.update_of_ne (by simp)]
    rfl

theorem fatherOf_setF (g : FG) (ff vf : List Nat) (v f : Nat) (hf : f < ff.length) (hv : v < g.numVars) :
    fatherOf g (ff.set f v) vf = Function.update (fatherOf g ff vf) (.inr f) (.of (.inl v)) := by
  funext x
  rcases x with w | w
  · rw [Function.update_of_ne (by simp)]
    rfl
  · by_cases e : w = f
    · subst e
      simp only [fatherOf, Function.update_self, List.getElem?_set_self hf]
      rw [if_neg (by omega), if_neg (by omega)]
    · rw [Function.update_of_ne (by simpa using e)]
      simp only [fatherOf, List.getElem?_set_ne (fun h => e h.symm)]

theorem fatherOf_setRoot (g : FG) (ff vf : List Nat) (f : Nat) (hf : f < ff.length) :
    fatherOf g (ff.set f (g.numVars + 1)) vf = Function.update (fatherOf g ff vf) (.inr f) .root := by
  funext x
  rcases x with w | w
  · rw [Function.update_of_ne (by simp)]
    rfl
  · by_cases e : w = f
    · subst e
      simp only [fatherOf, Function.update_self, List.getElem?_set_self hf]
      simp
    · rw [Function.update_of_ne (by simpa using e)]
      simp only [fatherOf, List.getElem?_set_ne (fun h => e h.symm)]

variable {g : FG}

theorem scanVariables_spec {D : Nat ⊕ Nat → Prop} {r : Nat ⊕ Nat} {ff : List Nat} {f : Nat} {s : List Nat} {fq : List Nat}
    (hs : g.scopes[f]? = some s) (hff : ff.length = g.scopes.length) (hr : ∀ v ∈ s, v < g.numVars) (hnd : s.Nodup) :
    ∀ (vs vf vq ds : List Nat), vf.length = g.numVars → s = ds ++ vs →
      Inv (bipartite g.scopes) D r (fatherOf g ff vf) (fq.map .inr ++ vq.map .inl) (some (.inr f, ds.map .inl)) →
      (scanVariables g ff f vs vf vq = some none ∧ ¬ (bipartite g.scopes).IsAcyclic) ∨
      ∃ vf' vq', scanVariables g ff f vs vf vq = some (some (vf', vq')) ∧ vf'.length = g.numVars ∧
        (∀ v ∈ vq', v ∈ vq ∨ v < g.numVars) ∧
        Inv (bipartite g.scopes) D r (fatherOf g ff vf') (fq.map .inr ++ vq'.map .inl) none := by
  have hf : f < g.scopes.length := (List.getElem?_eq_some_iff.mp hs).1
  intro vs
  induction vs with
  | nil =>
    intro vf vq ds hl hds h
    right
    refine ⟨vf, vq, rfl, hl, fun v hv => Or.inl hv, finish h ?_⟩
    rintro (v | v) hadj
    · obtain ⟨s', hs', hv⟩ := hadj
      rw [hs] at hs'
      obtain rfl := Option.some.inj hs'
      rw [hds] at hv
      simpa using hv
    · exact absurd hadj id
  | cons v vs ih =>
    intro vf vq ds hl hds h
    have hvs : v ∈ s := by rw [hds]; simp
    have hv : v < vf.length := by rw [hl]; exact hr v hvs
    have hadj : (bipartite g.scopes).Adj (.inr f) (.inl v) := ⟨s, hs, hvs⟩
    have hds' : s = (ds ++ [v]) ++ vs := by rw [hds]; simp
    have hvd : v ∉ ds := by
      intro hm
      rw [hds, List.nodup_append] at hnd
      exact hnd.2.2 v hm v (by simp) rfl
    unfold scanVariables
    rw [List.getElem?_eq_getElem hv]
    simp only
    by_cases c : vf[v] = g.scopes.length
    · rw [if_pos c]
      have hu : fatherOf g ff vf (.inl v) = .unvisited := by
        simp only [fatherOf, List.getElem?_eq_getElem hv, c, if_true]
      have h' := visit h hadj hu
      rw [← fatherOf_setV g ff vf v f hv hf] at h'
      rcases ih (vf.set v f) (vq ++ [v]) (ds ++ [v]) (by simpa using hl) hds' (by simpa using h') with q | ⟨vf', vq', e1, e2, e3, e4⟩
      · exact Or.inl q
      · refine Or.inr ⟨vf', vq', e1, e2, ?_, e4⟩
        intro w hw
        rcases e3 w hw with h1 | h1
        · rcases List.mem_append.mp h1 with h1 | h1
          · exact Or.inl h1
          · simp only [List.mem_singleton] at h1; subst h1; exact Or.inr (hr w hvs)
        · exact Or.inr h1
    · rw [if_neg c]
      have hu : fatherOf g ff vf (.inl v) ≠ .unvisited := by
        simp only [fatherOf, List.getElem?_eq_getElem hv]
        rw [if_neg c]
        simp
      have hff' : f < ff.length := by rw [hff]; exact hf
      rw [List.getElem?_eq_getElem hff']
      simp only
      by_cases c2 : ff[f] = v
      · have hfa : fatherOf g ff vf (.inr f) = .of (.inl v) := by
          have := hr v hvs
          simp only [fatherOf, List.getElem?_eq_getElem hff', c2]
          rw [if_neg (by omega), if_neg (by omega)]
        have h' := skip h hfa
        simp only [c2, ne_eq, not_true_eq_false, if_false]
        exact ih vf vq (ds ++ [v]) hl hds' (by simpa using h')
      · left
        simp only [ne_eq, c2, not_false_eq_true, if_true, true_and]
        refine cycle h hadj (by simpa using hvd) hu ?_
        have := hr v hvs
        simp only [fatherOf, List.getElem?_eq_getElem hff']
        split
        · simp
        · split
          · simp
          · simpa using c2

theorem drainFactors_spec (hex : g.Exact) {D : Nat ⊕ Nat → Prop} {r : Nat ⊕ Nat} {ff : List Nat}
    (hff : ff.length = g.scopes.length) :
    ∀ (fq vf vq : List Nat), vf.length = g.numVars → (∀ f ∈ fq, f < g.scopes.length) → (∀ v ∈ vq, v < g.numVars) →
      Inv (bipartite g.scopes) D r (fatherOf g ff vf) (fq.map .inr ++ vq.map .inl) none →
      (drainFactors g ff fq vf vq = some none ∧ ¬ (bipartite g.scopes).IsAcyclic) ∨
      ∃ vf' vq', drainFactors g ff fq vf vq = some (some (vf', vq')) ∧ vf'.length = g.numVars ∧
        (∀ v ∈ vq', v < g.numVars) ∧ Inv (bipartite g.scopes) D r (fatherOf g ff vf') (vq'.map .inl) none := by
  intro fq
  induction fq with
  | nil =>
    intro vf vq hl _ hq h
    exact Or.inr ⟨vf, vq, rfl, hl, hq, by simpa using h⟩
  | cons f fq ih =>
    intro vf vq hl hfq hq h
    have hf : f < g.scopes.length := hfq f (by simp)
    unfold drainFactors
    rw [List.getElem?_eq_getElem hf]
    simp only
    have hm := List.getElem_mem hf
    have h0 := pop (X := Nat ⊕ Nat) (x := .inr f) (pend := fq.map .inr ++ vq.map .inl) (by simpa using h)
    rcases scanVariables_spec (List.getElem?_eq_getElem hf) hff (hex.range _ hm)
      ((hex.sorted _ hm).imp (fun h => Nat.ne_of_lt h)) g.scopes[f] vf vq [] hl (by simp) h0 with
      ⟨e1, e2⟩ | ⟨vf', vq', e1, e2, e3, e4⟩
    · left; rw [e1]; exact ⟨rfl, e2⟩
    · rw [e1]
      refine ih vf' vq' e2 (fun w hw => hfq w (by simp [hw])) ?_ e4
      intro v hv
      rcases e3 v hv with h1 | h1
      · exact hq v h1
      · exact h1

theorem scanFactors_spec {D : Nat ⊕ Nat → Prop} {r : Nat ⊕ Nat} {vf : List Nat} {v : Nat} {s : List Nat} {vq : List Nat}
    (hv : v < g.numVars) (hvf : vf.length = g.numVars) (hnd : s.Nodup)
    (hs : ∀ f : Nat, f ∈ s ↔ ∃ t : List Nat, g.scopes[f]? = some t ∧ v ∈ t) :
    ∀ (fs ff fq ds : List Nat), ff.length = g.scopes.length → s = ds ++ fs →
      Inv (bipartite g.scopes) D r (fatherOf g ff vf) (vq.map .inl ++ fq.map .inr) (some (.inl v, ds.map .inr)) →
      (scanFactors g vf v fs ff fq = some none ∧ ¬ (bipartite g.scopes).IsAcyclic) ∨
      ∃ ff' fq', scanFactors g vf v fs ff fq = some (some (ff', fq')) ∧ ff'.length = g.scopes.length ∧
        (∀ f ∈ fq', f ∈ fq ∨ f < g.scopes.length) ∧
        ff'.count g.numVars + fq'.length = ff.count g.numVars + fq.length ∧
        (∀ f : Nat, ff[f]? ≠ some g.numVars → ff'[f]? ≠ some g.numVars) ∧
        Inv (bipartite g.scopes) D r (fatherOf g ff' vf) (vq.map .inl ++ fq'.map .inr) none := by
  have hrange : ∀ f ∈ s, f < g.scopes.length := by
    intro f hf
    obtain ⟨t, ht, _⟩ := (hs f).mp hf
    exact (List.getElem?_eq_some_iff.mp ht).1
  intro fs
  induction fs with
  | nil =>
    intro ff fq ds hl hds h
    right
    refine ⟨ff, fq, rfl, hl, fun v hv => Or.inl hv, rfl, fun f hf => hf, finish h ?_⟩
    rintro (f | f) hadj
    · exact absurd hadj id
    · have := (hs f).mpr hadj
      rw [hds] at this
      simpa using this
  | cons f fs ih =>
    intro ff fq ds hl hds h
    have hfs : f ∈ s := by rw [hds]; simp
    have hf : f < ff.length := by rw [hl]; exact hrange f hfs
    have hadj : (bipartite g.scopes).Adj (.inl v) (.inr f) := (hs f).mp hfs
    have hds' : s = (ds ++ [f]) ++ fs := by rw [hds]; simp
    have hfd : f ∉ ds := by
      intro hm
      rw [hds, List.nodup_append] at hnd
      exact hnd.2.2 f hm f (by simp) rfl
    unfold scanFactors
    rw [List.getElem?_eq_getElem hf]
    simp only
    by_cases c : ff[f] = g.numVars
    · rw [if_pos c]
      have hu : fatherOf g ff vf (.inr f) = .unvisited := by
        simp only [fatherOf, List.getElem?_eq_getElem hf, c, if_true]
      have h' := visit h hadj hu
      rw [← fatherOf_setF g ff vf v f hf hv] at h'
      have hcount : (ff.set f v).count g.numVars + 1 = ff.count g.numVars := by
        rw [List.count_set hf]
        have : 0 < ff.count g.numVars := List.count_pos_iff.mpr (c ▸ List.getElem_mem hf)
        have hvne : v ≠ g.numVars := by omega
        simp only [c, beq_self_eq_true, if_true, beq_iff_eq, hvne, if_false]
        omega
      rcases ih (ff.set f v) (fq ++ [f]) (ds ++ [f]) (by simpa using hl) hds' (by simpa using h') with
        q | ⟨ff', fq', e1, e2, e3, e5, e6, e4⟩
      · exact Or.inl q
      · refine Or.inr ⟨ff', fq', e1, e2, ?_, ?_, ?_, e4⟩
        · intro w hw
          rcases e3 w hw with h1 | h1
          · rcases List.mem_append.mp h1 with h1 | h1
            · exact Or.inl h1
            · simp only [List.mem_singleton] at h1; subst h1; exact Or.inr (hrange w hfs)
          · exact Or.inr h1
        · simp only [List.length_append, List.length_singleton] at e5
          omega
        · intro w hw
          apply e6
          by_cases e : f = w
          · subst e
            rw [List.getElem?_set_self hf]
            simp only [ne_eq, Option.some.injEq]; omega
          · rw [List.getElem?_set_ne e]; exact hw
    · rw [if_neg c]
      have hu : fatherOf g ff vf (.inr f) ≠ .unvisited := by
        simp only [fatherOf, List.getElem?_eq_getElem hf]
        rw [if_neg c]
        split <;> simp
      have hvf' : v < vf.length := by rw [hvf]; exact hv
      rw [List.getElem?_eq_getElem hvf']
      simp only
      by_cases c2 : vf[v] = f
      · have hfa : fatherOf g ff vf (.inl v) = .of (.inr f) := by
          have := hrange f hfs
          simp only [fatherOf, List.getElem?_eq_getElem hvf', c2]
          rw [if_neg (by omega)]
        have h' := skip h hfa
        simp only [c2, ne_eq, not_true_eq_false, if_false]
        exact ih ff fq (ds ++ [f]) hl hds' (by simpa using h')
      · left
        simp only [ne_eq, c2, not_false_eq_true, if_true, true_and]
        refine cycle h hadj (by simpa using hfd) hu ?_
        simp only [fatherOf, List.getElem?_eq_getElem hvf']
        split
        · simp
        · simpa using c2

theorem drainVariables_spec (hex : g.Exact) {D : Nat ⊕ Nat → Prop} {r : Nat ⊕ Nat} {vf : List Nat}
    (hvf : vf.length = g.numVars) :
    ∀ (vq ff fq : List Nat), ff.length = g.scopes.length → (∀ v ∈ vq, v < g.numVars) → (∀ f ∈ fq, f < g.scopes.length) →
      Inv (bipartite g.scopes) D r (fatherOf g ff vf) (vq.map .inl ++ fq.map .inr) none →
      (drainVariables g vf vq ff fq = some none ∧ ¬ (bipartite g.scopes).IsAcyclic) ∨
      ∃ ff' fq', drainVariables g vf vq ff fq = some (some (ff', fq')) ∧ ff'.length = g.scopes.length ∧
        (∀ f ∈ fq', f < g.scopes.length) ∧ ff'.count g.numVars + fq'.length = ff.count g.numVars + fq.length ∧
        (∀ f : Nat, ff[f]? ≠ some g.numVars → ff'[f]? ≠ some g.numVars) ∧
        Inv (bipartite g.scopes) D r (fatherOf g ff' vf) (fq'.map .inr) none := by
  intro vq
  induction vq with
  | nil =>
    intro ff fq hl _ hq h
    exact Or.inr ⟨ff, fq, rfl, hl, hq, rfl, fun f hf => hf, by simpa using h⟩
  | cons v vq ih =>
    intro ff fq hl hvq hq h
    have hv : v < g.numVars := hvq v (by simp)
    obtain ⟨s, hs1, hs2, hs3⟩ := hex.adj v hv
    unfold drainVariables
    rw [hs1]
    simp only
    have h0 := pop (X := Nat ⊕ Nat) (x := .inl v) (pend := vq.map .inl ++ fq.map .inr) (by simpa using h)
    rcases scanFactors_spec hv hvf (hs2.imp (fun h => Nat.ne_of_lt h)) hs3 s ff fq [] hl (by simp) h0 with
      ⟨e1, e2⟩ | ⟨ff', fq', e1, e2, e3, e5, e6, e4⟩
    · left; rw [e1]; exact ⟨rfl, e2⟩
    · rw [e1]
      rcases ih ff' fq' e2 (fun w hw => hvq w (by simp [hw])) (by
        intro f hf
        rcases e3 f hf with h1 | h1
        · exact hq f h1
        · exact h1) e4 with q | ⟨ff2, fq2, q1, q2, q3, q5, q6, q4⟩
      · exact Or.inl q
      · exact Or.inr ⟨ff2, fq2, q1, q2, q3, by omega, fun f hf => q6 f (e6 f hf), q4⟩

theorem rounds_spec (hex : g.Exact) {D : Nat ⊕ Nat → Prop} {r : Nat ⊕ Nat} :
    ∀ (fuel : Nat) (ff vf fq : List Nat), ff.length = g.scopes.length → vf.length = g.numVars →
      (∀ f ∈ fq, f < g.scopes.length) → ff.count g.numVars + fq.length ≤ fuel →
      Inv (bipartite g.scopes) D r (fatherOf g ff vf) (fq.map .inr) none →
      (rounds g fuel ff vf fq = some none ∧ ¬ (bipartite g.scopes).IsAcyclic) ∨
      ∃ ff' vf', rounds g fuel ff vf fq = some (some (ff', vf')) ∧ ff'.length = g.scopes.length ∧ vf'.length = g.numVars ∧
        (∀ f : Nat, ff[f]? ≠ some g.numVars → ff'[f]? ≠ some g.numVars) ∧
        Inv (bipartite g.scopes) D r (fatherOf g ff' vf') [] none := by
  intro fuel
  induction fuel with
  | zero =>
    intro ff vf fq h1 h2 _ hfuel h
    have : fq = [] := by
      cases fq with
      | nil => rfl
      | cons a l => simp at hfuel
    subst this
    exact Or.inr ⟨ff, vf, by simp [rounds], h1, h2, fun f hf => hf, by simpa using h⟩
  | succ fuel ih =>
    intro ff vf fq h1 h2 hfq hfuel h
    cases fq with
    | nil => exact Or.inr ⟨ff, vf, by simp [rounds], h1, h2, fun f hf => hf, by simpa using h⟩
    | cons f fq =>
      unfold rounds
      rcases drainFactors_spec hex h1 (f :: fq) vf [] h2 hfq (by simp) (by simpa using h) with
        ⟨e1, e2⟩ | ⟨vf', vq', e1, e2, e3, e4⟩
      · left; rw [e1]; exact ⟨rfl, e2⟩
      · rw [e1]
        simp only
        rcases drainVariables_spec hex e2 vq' ff [] h1 e3 (by simp) (by simpa using e4) with
          ⟨q1, q2⟩ | ⟨ff', fq', q1, q2, q3, q5, q6, q4⟩
        · left; rw [q1]; exact ⟨rfl, q2⟩
        · rw [q1]
          simp only
          simp only [List.length_cons, List.length_nil] at hfuel q5
          rcases ih ff' vf' fq' q2 e2 q3 (by omega) q4 with w | ⟨ff2, vf2, w1, w2, w3, w5, w4⟩
          · exact Or.inl w
          · exact Or.inr ⟨ff2, vf2, w1, w2, w3, fun f hf => w5 f (q6 f hf), w4⟩

theorem acyclicLoop_spec (hex : g.Exact) : ∀ (Fs ff vf : List Nat), ff.length = g.scopes.length → vf.length = g.numVars →
    (∀ f ∈ Fs, f < g.scopes.length) → (∃ (D : Nat ⊕ Nat → Prop) (r : Nat ⊕ Nat),
      Inv (bipartite g.scopes) D r (fatherOf g ff vf) [] none) →
    (∀ f, f < g.scopes.length → f ∈ Fs ∨ ff[f]? ≠ some g.numVars) →
    ∃ b, acyclicLoop g Fs ff vf = some b ∧ (b = true ↔ (bipartite g.scopes).IsAcyclic) := by
  intro Fs
  induction Fs with
  | nil =>
    intro ff vf h1 h2 _ ⟨D, r, h⟩ hall
    refine ⟨true, rfl, ⟨fun _ => acyclic h ?_, fun _ => rfl⟩⟩
    have key : ∀ (v f : Nat), (bipartite g.scopes).Adj (.inr f) (.inl v) →
        fatherOf g ff vf (.inl v) = .of (.inr f) ∨ fatherOf g ff vf (.inr f) = .of (.inl v) := by
      intro v f hadj
      refine h.processed (.inr f) ?_ (by simp) (by simp) _ hadj
      obtain ⟨s, hs, _⟩ := hadj
      have hf := (List.getElem?_eq_some_iff.mp hs).1
      rcases hall f hf with h' | h'
      · simp at h'
      · have hf' : f < ff.length := by rw [h1]; exact hf
        rw [List.getElem?_eq_getElem hf'] at h'
        simp only [fatherOf, List.getElem?_eq_getElem hf']
        rw [if_neg (by simpa using h')]
        split <;> simp
    rintro (v | f) (w | f') hadj
    · exact absurd hadj id
    · exact key v f' hadj.symm
    · exact (key w f hadj).symm
    · exact absurd hadj id
  | cons F Fs ih =>
    intro ff vf h1 h2 hFs ⟨D, r, h⟩ hall
    have hF : F < ff.length := by rw [h1]; exact hFs F (by simp)
    unfold acyclicLoop
    rw [List.getElem?_eq_getElem hF]
    simp only
    by_cases c : ff[F] = g.numVars
    · rw [if_pos c]
      have hu : fatherOf g ff vf (.inr F) = .unvisited := by
        simp only [fatherOf, List.getElem?_eq_getElem hF, c, if_true]
      have h' := newRoot h hu
      rw [← fatherOf_setRoot g ff vf F hF] at h'
      have hcount : (ff.set F (g.numVars + 1)).count g.numVars + [F].length ≤ g.scopes.length + 1 := by
        have := List.count_le_length (a := g.numVars) (l := ff.set F (g.numVars + 1))
        rw [List.length_set, h1] at this
        simp only [List.length_singleton]
        omega
      rcases rounds_spec hex (g.scopes.length + 1) (ff.set F (g.numVars + 1)) vf [F] (by simpa using h1) h2
        (by simpa using hFs F (by simp)) hcount (by simpa using h') with
        ⟨e1, e2⟩ | ⟨ff', vf', e1, e2, e3, e5, e4⟩
      · rw [e1]; exact ⟨false, rfl, by simpa using e2⟩
      · rw [e1]
        refine ih ff' vf' e2 e3 (fun f hf => hFs f (by simp [hf])) ⟨_, _, e4⟩ ?_
        intro f hf
        have hset : f = F → ff'[f]? ≠ some g.numVars := by
          rintro rfl
          apply e5
          rw [List.getElem?_set_self hF]
          simp
        rcases hall f hf with hm | hm
        · rcases List.mem_cons.mp hm with hm | hm
          · exact Or.inr (hset hm)
          · exact Or.inl hm
        · by_cases e : f = F
          · exact Or.inr (hset e)
          · right
            apply e5
            rw [List.getElem?_set_ne (fun h => e h.symm)]
            exact hm
    · rw [if_neg c]
      refine ih ff vf h1 h2 (fun f hf => hFs f (by simp [hf])) ⟨D, r, h⟩ ?_
      intro f hf
      rcases hall f hf with hm | hm
      · rcases List.mem_cons.mp hm with rfl | hm
        · right
          rw [List.getElem?_eq_getElem hF]
          simpa using c
        · exact Or.inl hm
      · exact Or.inr hm

/-- C12: for every consistent factor graph, `isAcyclic` terminates without undefined behaviour and returns true iff the
bipartite variable-factor graph contains no cycle. -/
theorem C12_isAcyclic (g : FG) (h : g.Exact) :
    ∃ b, g.isAcyclic = some b ∧ (b = true ↔ (bipartite g.scopes).IsAcyclic) := by
  apply acyclicLoop_spec h _ _ _ (by simp) (by simp)
  · intro f hf; exact List.mem_range.mp hf
  · refine ⟨fun _ => False, .inr 0, ?_⟩
    have : fatherOf g (List.replicate g.scopes.length g.numVars) (List.replicate g.numVars g.scopes.length) =
        fun _ => .unvisited := by
      funext x
      rcases x with v | v
      · simp only [fatherOf, List.getElem?_replicate]
        split
        · rfl
        · rename_i e
          split at e
          · simp only [Option.some.injEq] at e; rw [if_pos e.symm]
          · cases e
      · simp only [fatherOf, List.getElem?_replicate]
        split
        · rfl
        · rename_i e
          split at e
          · simp only [Option.some.injEq] at e; rw [if_pos e.symm]
          · cases e
    rw [this]
    exact init _
  · intro f hf; exact Or.inl (List.mem_range.mpr hf)

example := C12_isAcyclic demoGraph demoGraph_exact
example : demoGraph.isAcyclic = some false := by decide
example := C12_isAcyclic demoForest demoForest_exact
example : demoForest.isAcyclic = some true := by decide

end OpenGM.FG
