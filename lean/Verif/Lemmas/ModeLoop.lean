import Verif.Lemmas.ModeMain
/-
The loops of `constrainedOptimum`.
-/
namespace OpenGM.Mode
open Spec BP FactorOps MessagePassing
variable {V : Type} {q : Ops V} {P : V → Prop} {m : Base V} {p : Problem V} {C : List Nat → Prop} {K : Set Nat}

theorem confAt_lt {conf : List (Option Nat)} {v : Nat} (h : confAt conf v ≠ none) : v < conf.length := by
  by_contra hn
  exact h (by simp [confAt, List.getD, hn])

/-- The state of the search: `A` are the chosen variables that wait, `B` those of `K`. -/
structure SInv (q : Ops V) (p : Problem V) (C : List Nat → Prop) (K : Set Nat) (s : Search) (A B : List Nat) (pend : Nat → Prop) : Prop where
  waiting : s.waiting = A ++ B
  len : s.conf.length = p.numLabels.length
  ginv : GInv p.scopes K (confAt s.conf) A pend
  opt : ∃ x, p.Best q.o q.bop C x ∧ Consistent (confAt s.conf) x
  known : ∀ x y, p.Best q.o q.bop C x → p.Labeling y → q.bop (p.energy q.o x) (p.energy q.o y) = false → ∀ k ∈ K, confAt s.conf k = some (y.getD k 0)
  given : ∀ u, p.Labeling u → Consistent (confAt s.conf) u → C u
  back : ∀ b ∈ B, b ∈ K
  count : s.fixed ≤ s.conf.countP Option.isSome

theorem SInv.pend {s : Search} {A B : List Nat} {pd pd' : Nat → Prop} (hI : SInv q p C K s A B pd) (h : ∀ g, pd g → pd' g) : SInv q p C K s A B pd' where
  waiting := hI.waiting
  len := hI.len
  ginv := ⟨fun v hv g hg => (hI.ginv.closure v hv g hg).imp_right (fun h' => h'.imp_right (h g)), hI.ginv.conn, hI.ginv.active⟩
  opt := hI.opt
  known := hI.known
  given := hI.given
  back := hI.back
  count := hI.count

theorem countP_put {conf : List (Option Nat)} {w l : Nat} (hw : w < conf.length) (hu : confAt conf w = none) : (conf.set w (some l)).countP Option.isSome = conf.countP Option.isSome + 1 := by
  have e : conf[w] = none := by simpa [confAt, List.getD, hw] using hu
  rw [List.countP_set (h := hw), e]
  simp

/-- Number of unset variables. -/
def unset (conf : List (Option Nat)) : Nat := conf.countP Option.isNone

theorem unset_put {conf : List (Option Nat)} {w l : Nat} (hw : w < conf.length) (hu : confAt conf w = none) : unset (conf.set w (some l)) + 1 = unset conf := by
  have e : conf[w] = none := by simpa [confAt, List.getD, hw] using hu
  have hpos : 0 < conf.countP Option.isNone := List.countP_pos_iff.mpr ⟨conf[w], List.getElem_mem hw, by simp [e]⟩
  unfold unset
  rw [List.countP_set (h := hw), e]
  simp
  omega

/-- All are set if as many are counted. -/
theorem all_set {conf : List (Option Nat)} {n : Nat} (hl : conf.length = n) (h : n ≤ conf.countP Option.isSome) : ∀ v, v < n → confAt conf v ≠ none := by
  intro v hv hn
  have he : conf.countP Option.isSome = conf.length := le_antisymm List.countP_le_length (by omega)
  rw [List.countP_eq_length] at he
  have hv' : v < conf.length := by omega
  have := he conf[v] (List.getElem_mem hv')
  have e : conf[v] = none := by simpa [confAt, List.getD, hv'] using hn
  rw [e] at this
  cases this

section
variable (hq : Suits q P) (h : Setting q P m p)
include hq h

/-- One label set: the invariant. -/
theorem SInv.put {s : Search} {A B : List Nat} {pd pd' : Nat → Prop} (hI : SInv q p C K s A B pd) {w l : Nat} (hw : w < p.numLabels.length) (hu : confAt s.conf w = none)
    (hG : GInv p.scopes K (put (confAt s.conf) w l) (w :: A) pd') (D : Nat → Prop) (hD : ∀ v, D v → confAt s.conf v ≠ none) {y : List Nat} (hy : p.Labeling y)
    (hyc : ∀ v k, D v → confAt s.conf v = some k → y.getD v 0 = k) (hymin : ∀ u, p.Labeling u →
      (∀ v k, D v → confAt s.conf v = some k → u.getD v 0 = k) → q.bop (p.energy q.o u) (p.energy q.o y) = false) (hyw : y.getD w 0 = l)
    (hfree : ∀ v, Chosen K (confAt s.conf) v → ¬ Link p.scopes (fun u => u ∉ K ∧ ¬ D u) w v)
    {fx : Nat} (hfx : fx ≤ s.fixed + 1) : SInv q p C K ⟨s.conf.set w (some l), fx, w :: s.waiting⟩ (w :: A) B pd' := by
  have hwl : w < s.conf.length := by rw [hI.len]; exact hw
  obtain ⟨x, x1, x2⟩ := hI.opt
  have hyx : q.bop (p.energy q.o x) (p.energy q.o y) = false := hymin x x1.1 (fun v k _ hk => x2 v k hk)
  have hyK := hI.known x y x1 hy hyx
  have hwK : w ∉ K := by
    intro hk
    have := hyK w hk
    rw [hu] at this
    cases this
  obtain ⟨z, z1, z2⟩ := put_best hq.ordered h.values h.range D hD x1 x2 hy hyc hymin hyK hI.given hu hwK hyw hfree
  refine ⟨by simp [hI.waiting], by simpa using hI.len, ?_, ?_, ?_, ?_, hI.back, ?_⟩
  · rw [confAt_set hwl]; exact hG
  · refine ⟨z, z1, ?_⟩
    rw [confAt_set hwl]; exact z2
  · intro x' y' hx' hy' hb k hk
    rw [confAt_set hwl]
    unfold Mode.put
    have := hI.known x' y' hx' hy' hb k hk
    rw [if_neg (by rintro rfl; exact hwK hk)]
    exact this
  · intro u hu' hc
    refine hI.given u hu' fun v k hk => hc v k ?_
    simp only
    rw [confAt_set hwl]
    unfold Mode.put
    rw [if_neg (by rintro rfl; rw [hu] at hk; cases hk)]
    exact hk
  · have := countP_put (l := l) hwl hu
    have := hI.count
    simp only
    omega

/-- What a factor of `var` is. -/
theorem factor_of {var f : Nat} (hf : f ∈ adjOf m.gm var) : ∃ rec t, m.gm.factors[f]? = some rec ∧ p.terms[f]? = some t ∧ m.gm.scope rec = t.vars ∧ scopeOf p.scopes f = t.vars ∧ var ∈ t.vars ∧
    ∀ v ∈ t.vars, v < p.numLabels.length := by
  have hr := h.represents
  have hN := net_of_represents hr
  have hv := (hN.mem var f).mp hf
  have hfl := hN.rangeF var f hv
  have hrec := List.getElem?_eq_getElem hfl
  obtain ⟨t, ht, hm⟩ := factor_matches hr hrec
  have hsc := scopeOf_term ht
  exact ⟨_, t, hrec, ht, hm.scope, hsc, by rw [← hsc]; exact hv, h.range t (List.mem_of_getElem? ht)⟩

/-- The loop over the factors of a chosen variable. -/
theorem visit_chosen {var : Nat} {B : List Nat} : ∀ {fs : List Nat} {s : Search} {A : List Nat}, (∀ f ∈ fs, f ∈ adjOf m.gm var) → Chosen K (confAt s.conf) var →
    SInv q p C K s A B (fun g => g ∈ fs) →
    ∃ s' A', visitFactors q m var fs s = some s' ∧ SInv q p C K s' A' B (fun _ => False) ∧ s'.waiting.length + unset s'.conf = s.waiting.length + unset s.conf
  | [], s, A, _, _, hI => ⟨s, A, rfl, hI.pend (by simp), rfl⟩
  | f :: fs, s, A, hfs, hc, hI => by
    obtain ⟨rec, t, r1, r2, r3, r4, r5, r6⟩ := factor_of hq h (hfs f List.mem_cons_self)
    have hfs' : ∀ f ∈ fs, f ∈ adjOf m.gm var := fun g hg => hfs g (List.mem_cons_of_mem _ hg)
    obtain ⟨u, u1, u2, u3⟩ := firstUnset_spec (conf := s.conf) (vs := t.vars) (fun v hv => by rw [hI.len]; exact r6 v hv)
    unfold visitFactors
    rw [r1]
    simp only
    rw [r3, u1]
    have hdrop : ∀ g, (g ∈ f :: fs ∧ g ≠ f) → g ∈ fs := by
      rintro g ⟨h1, h2⟩
      rcases List.mem_cons.mp h1 with h1 | h1
      · exact absurd h1 h2
      · exact h1
    cases u with
    | none =>
      simp only
      refine visit_chosen hfs' hc ⟨hI.waiting, hI.len, ?_, hI.opt, hI.known, hI.given, hI.back, hI.count⟩
      have hv := hI.ginv.visited (f := f) (by rw [r4]; exact u2 rfl)
      exact ⟨fun v hv' g hg => (hv.closure v hv' g hg).imp_right (fun h' => h'.imp_right (hdrop g)), hv.conn, hv.active⟩
    | some w =>
      obtain ⟨w1, w2⟩ := u3 w rfl
      have hwl : w < s.conf.length := by rw [hI.len]; exact r6 w w1
      have hwK : w ∉ K := by
        intro hk
        obtain ⟨x, x1, _⟩ := hI.opt
        have := hI.known x x x1 x1.1 (hq.ordered.order.irrefl _) w hk
        rw [w2] at this
        cases this
      have hne : w ≠ var := by rintro rfl; exact hc.2 w2
      simp only
      rw [if_pos hne]
      obtain ⟨x, x1, x2⟩ := hI.opt
      obtain ⟨l, y, y1, y2, y3, y4, y5⟩ := pick_factor hq h r2 w1 hI.len w2 x1.1 x2
      rw [y1]
      simp only
      have hG := hI.ginv.put_next (l := l) hc (by rw [r4]; exact r5) (show w ∈ scopeOf p.scopes f by rw [r4]; exact w1) w2 hwK
      have hS : SInv q p C K ⟨s.conf.set w (some l), s.fixed + 1, w :: s.waiting⟩ (w :: A) B (fun g => g ∈ fs) := by
        refine hI.put hq h (r6 w w1) w2 (l := l) (pd' := fun g => g ∈ fs) ?_ (fun v => v ∈ scopeOf p.scopes f ∧ confAt s.conf v ≠ none) (fun v hv => hv.2) y2 ?_ ?_ y3 ?_ (le_refl _)
        · exact ⟨fun v hv' g hg => (hG.closure v hv' g hg).imp_right (fun h' => h'.imp_right (hdrop g)), hG.conn, hG.active⟩
        · intro v k hv hk
          exact y4 v (by rw [← r4]; exact hv.1) k hk
        · intro u hu huc
          exact y5 u hu (fun v hv k hk => huc v k ⟨by rw [r4]; exact hv, by rw [hk]; simp⟩ hk)
        · intro v hv
          exact hI.ginv.behind h.forest hc (by rw [r4]; exact r5) (show w ∈ scopeOf p.scopes f by rw [r4]; exact w1) w2 hwK hv
      obtain ⟨s', A', g1, g2, g3⟩ := visit_chosen hfs' (by
        simp only
        rw [confAt_set hwl]
        exact chosen_put_of w2 hc) hS
      refine ⟨s', A', g1, g2, ?_⟩
      rw [g3]
      have := unset_put (l := l) hwl w2
      simp only [List.length_cons]
      omega

/-- The loop over the factors of a variable of `K`. -/
theorem visit_known {var : Nat} (hk : var ∈ K) {B : List Nat} : ∀ {fs : List Nat} {s : Search} {A : List Nat}, (∀ f ∈ fs, f ∈ adjOf m.gm var) → fs.Nodup →
    (∀ a ∈ A, ∃ g, var ∈ scopeOf p.scopes g ∧ a ∈ scopeOf p.scopes g ∧ g ∉ fs) → SInv q p C K s A B (fun _ => False) →
    ∃ s' A', visitFactors q m var fs s = some s' ∧ SInv q p C K s' A' B (fun _ => False) ∧ s'.waiting.length + unset s'.conf = s.waiting.length + unset s.conf
  | [], s, A, _, _, _, hI => ⟨s, A, rfl, hI, rfl⟩
  | f :: fs, s, A, hfs, hnd, hA, hI => by
    obtain ⟨rec, t, r1, r2, r3, r4, r5, r6⟩ := factor_of hq h (hfs f List.mem_cons_self)
    have hfs' : ∀ f ∈ fs, f ∈ adjOf m.gm var := fun g hg => hfs g (List.mem_cons_of_mem _ hg)
    have hA' : ∀ a ∈ A, ∃ g, var ∈ scopeOf p.scopes g ∧ a ∈ scopeOf p.scopes g ∧ g ∉ fs := by
      intro a ha
      obtain ⟨g, g1, g2, g3⟩ := hA a ha
      exact ⟨g, g1, g2, fun hg => g3 (List.mem_cons_of_mem _ hg)⟩
    obtain ⟨u, u1, u2, u3⟩ := firstUnset_spec (conf := s.conf) (vs := t.vars) (fun v hv => by rw [hI.len]; exact r6 v hv)
    unfold visitFactors
    rw [r1]
    simp only
    rw [r3, u1]
    cases u with
    | none =>
      simp only
      exact visit_known hk hfs' (List.nodup_cons.mp hnd).2 hA' hI
    | some w =>
      obtain ⟨w1, w2⟩ := u3 w rfl
      have hwl : w < s.conf.length := by rw [hI.len]; exact r6 w w1
      have hwK : w ∉ K := by
        intro hk
        obtain ⟨x, x1, _⟩ := hI.opt
        have := hI.known x x x1 x1.1 (hq.ordered.order.irrefl _) w hk
        rw [w2] at this
        cases this
      have hne : w ≠ var := by rintro rfl; exact hwK hk
      simp only
      rw [if_pos hne]
      obtain ⟨x, x1, x2⟩ := hI.opt
      obtain ⟨l, y, y1, y2, y3, y4, y5⟩ := pick_factor hq h r2 w1 hI.len w2 x1.1 x2
      rw [y1]
      simp only
      have hwf : w ∈ scopeOf p.scopes f := by rw [r4]; exact w1
      have hvf : var ∈ scopeOf p.scopes f := by rw [r4]; exact r5
      have hfar : ∀ v, Link p.scopes (· ∉ K) w v → confAt s.conf v = none := by
        intro v hl
        refine hI.ginv.apart (by simp) w2 ?_ hl
        intro a ha hla
        obtain ⟨g, g1, g2, g3⟩ := hA a ha
        have hne2 : f ≠ g := by rintro rfl; exact g3 List.mem_cons_self
        have haK := (hI.ginv.active a ha).1
        have s1 := side_of_avoid (X := (· ∉ K)) (u := var) (by simpa using hk) hwf hwK hla
        have s2 := side_of_avoid (S := p.scopes) (X := (· ∉ K)) (u := var) (by simpa using hk) g2 haK (v := a) Relation.ReflTransGen.refl
        exact side_disjoint h.forest (adj_iff'.mpr hvf) (adj_iff'.mpr g1) (by simpa using hne2) s1 s2
      have hG := hI.ginv.put_apart (l := l) w2 hwK hfar
      have hS : SInv q p C K ⟨s.conf.set w (some l), s.fixed + 1, w :: s.waiting⟩ (w :: A) B (fun _ => False) := by
        refine hI.put hq h (r6 w w1) w2 (l := l) hG (fun v => v ∈ scopeOf p.scopes f ∧ confAt s.conf v ≠ none) (fun v hv => hv.2) y2 ?_ ?_ y3 ?_ (le_refl _)
        · intro v k hv hk
          exact y4 v (by rw [← r4]; exact hv.1) k hk
        · intro u hu huc
          exact y5 u hu (fun v hv k hk => huc v k ⟨by rw [r4]; exact hv, by rw [hk]; simp⟩ hk)
        · intro v hv hl
          exact hv.2 (hfar v (hl.mono (fun _ h => h.1)))
      obtain ⟨s', A', g1, g2, g3⟩ := visit_known hk hfs' (List.nodup_cons.mp hnd).2 (A := w :: A) (by
        intro a ha
        rcases List.mem_cons.mp ha with rfl | ha
        · exact ⟨f, hvf, hwf, (List.nodup_cons.mp hnd).1⟩
        · exact hA' a ha) hS
      refine ⟨s', A', g1, g2, ?_⟩
      rw [g3]
      have := unset_put (l := l) hwl w2
      simp only [List.length_cons]
      omega

/-- The inner loop. -/
theorem popLoop_spec : ∀ {k : Nat} {s : Search} {A B : List Nat}, s.waiting.length + unset s.conf ≤ k → SInv q p C K s A B (fun _ => False) →
    ∃ s' A' B', popLoop q m k s = some s' ∧ SInv q p C K s' A' B' (fun _ => False) ∧ (s'.waiting = [] ∨ p.numLabels.length ≤ s'.fixed)
  | 0, s, A, B, hk, hI => by
    have h0 : s.waiting = [] := List.length_eq_zero_iff.mp (by omega)
    refine ⟨s, A, B, ?_, hI, Or.inl h0⟩
    unfold popLoop
    simp [h0]
  | k + 1, s, A, B, hk, hI => by
    have hN := net_of_represents h.represents
    have hlab : m.gm.numLabels = p.numLabels := h.represents.labels
    unfold popLoop
    cases hw : s.waiting with
    | nil => exact ⟨s, A, B, rfl, hI, Or.inl hw⟩
    | cons var rest =>
      simp only
      by_cases hfx : s.fixed < m.gm.numLabels.length
      · rw [if_pos hfx]
        have hwt := hI.waiting
        rw [hw] at hwt
        have hlen : rest.length + unset s.conf ≤ k := by rw [hw, List.length_cons] at hk; omega
        have hset : confAt s.conf var ≠ none := by
          cases A with
          | nil =>
            cases B with
            | nil => simp at hwt
            | cons b B =>
              simp only [List.nil_append, List.cons.injEq] at hwt
              obtain ⟨x, x1, _⟩ := hI.opt
              rw [hwt.1, hI.known x x x1 x1.1 (hq.ordered.order.irrefl _) b (hI.back b List.mem_cons_self)]
              simp
          | cons a A =>
            simp only [List.cons_append, List.cons.injEq] at hwt
            rw [hwt.1]
            exact (hI.ginv.active a List.mem_cons_self).2
        have hvar : var < m.gm.numLabels.length := by rw [hlab, ← hI.len]; exact confAt_lt hset
        rw [hN.adj var hvar]
        simp only
        have step : ∃ s' A' B', visitFactors q m var (adjOf m.gm var) { s with waiting := rest } = some s' ∧ SInv q p C K s' A' B' (fun _ => False) ∧
            s'.waiting.length + unset s'.conf = rest.length + unset s.conf := by
          cases A with
          | nil =>
            cases B with
            | nil => simp at hwt
            | cons b B =>
              simp only [List.nil_append, List.cons.injEq] at hwt
              obtain ⟨rfl, rfl⟩ := hwt
              obtain ⟨s', A', g1, g2, g3⟩ := visit_known hq h (hI.back var List.mem_cons_self) (B := rest) (s := { s with waiting := rest }) (A := []) (fun f hf => hf) (hN.nodupV var) (by simp)
                ⟨rfl, hI.len, hI.ginv, hI.opt, hI.known, hI.given, fun b hb => hI.back b (List.mem_cons_of_mem _ hb), hI.count⟩
              exact ⟨s', A', rest, g1, g2, g3⟩
          | cons a A =>
            simp only [List.cons_append, List.cons.injEq] at hwt
            obtain ⟨rfl, rfl⟩ := hwt
            have hcl : ∀ v, Chosen K (confAt s.conf) v → ∀ g, v ∈ scopeOf p.scopes g →
                (∀ u ∈ scopeOf p.scopes g, confAt s.conf u ≠ none) ∨ (∃ a ∈ A, a ∈ scopeOf p.scopes g) ∨ g ∈ adjOf m.gm var := by
              intro v hv g hg
              rcases hI.ginv.closure v hv g hg with h' | ⟨a, ha, hag⟩ | h'
              · exact Or.inl h'
              · rcases List.mem_cons.mp ha with rfl | ha
                · exact Or.inr (Or.inr ((hN.mem a g).mpr hag))
                · exact Or.inr (Or.inl ⟨a, ha, hag⟩)
              · exact absurd h' (by simp)
            obtain ⟨s', A', g1, g2, g3⟩ := visit_chosen hq h (B := B) (fs := adjOf m.gm var) (s := { s with waiting := A ++ B }) (A := A) (fun f hf => hf)
              (hI.ginv.active var List.mem_cons_self) ⟨rfl, hI.len, ⟨hcl, hI.ginv.conn, fun a ha => hI.ginv.active a (List.mem_cons_of_mem _ ha)⟩, hI.opt, hI.known, hI.given, hI.back, hI.count⟩
            exact ⟨s', A', B, g1, g2, g3⟩
        obtain ⟨s', A', B', g1, g2, g3⟩ := step
        obtain ⟨s'', A'', B'', e1, e2, e3⟩ := popLoop_spec (k := k) (s := s') (by omega) g2
        refine ⟨s'', A'', B'', ?_, e2, e3⟩
        rw [g1]
        exact e1
      · rw [if_neg hfx]
        exact ⟨s, A, B, rfl, hI, Or.inr (by rw [← hlab]; omega)⟩

/-- The outer loop. -/
theorem outerLoop_spec : ∀ {vs : List Nat} {s : Search} {A B : List Nat}, (∀ v ∈ vs, v < p.numLabels.length) → (∀ v, v < p.numLabels.length → v ∉ vs → confAt s.conf v ≠ none) →
    SInv q p C K s A B (fun _ => False) →
    ∃ s' A' B', outerLoop q m vs s = some s' ∧ SInv q p C K s' A' B' (fun _ => False) ∧ ∀ v, v < p.numLabels.length → confAt s'.conf v ≠ none
  | [], s, A, B, _, hdone, hI => ⟨s, A, B, rfl, hI, fun v hv => hdone v hv (by simp)⟩
  | v :: vs, s, A, B, hr, hdone, hI => by
    have hlab : m.gm.numLabels = p.numLabels := h.represents.labels
    have hv := hr v List.mem_cons_self
    have hr' : ∀ u ∈ vs, u < p.numLabels.length := fun u hu => hr u (List.mem_cons_of_mem _ hu)
    unfold outerLoop
    by_cases hfx : s.fixed < m.gm.numLabels.length
    · rw [if_pos hfx]
      obtain ⟨s', A', B', g1, g2, g3⟩ := popLoop_spec hq h (k := s.waiting.length + m.gm.numLabels.length) (s := s) (by
        have : unset s.conf ≤ s.conf.length := List.countP_le_length
        rw [hlab, ← hI.len]
        omega) hI
      rw [g1]
      simp only
      -- labels that are set stay set
      have hkeep : ∀ u, u < p.numLabels.length → u ∉ v :: vs → confAt s'.conf u ≠ none := by
        have key : ∀ (k : Nat) (a b : Search), popLoop q m k a = some b → ∀ u, confAt a.conf u ≠ none → confAt b.conf u ≠ none := by
          have hvis : ∀ (var : Nat) (fs : List Nat) (a b : Search), visitFactors q m var fs a = some b → ∀ u, confAt a.conf u ≠ none → confAt b.conf u ≠ none := by
            intro var fs
            induction fs with
            | nil => intro a b e u hu; cases e; exact hu
            | cons f fs ih =>
              intro a b e u hu
              unfold visitFactors at e
              split at e
              · cases e
              · split at e
                · cases e
                · exact ih _ _ e u hu
                · split at e
                  · split at e
                    · cases e
                    · refine ih _ _ e u ?_
                      rename_i w _ _ _ l _
                      have hul := confAt_lt hu
                      simp only [confAt, List.getD]
                      by_cases huw : w = u
                      · subst huw; simp [hul]
                      · rw [List.getElem?_set_ne huw]; exact hu
                  · exact ih _ _ e u hu
          intro k
          induction k with
          | zero =>
            intro a b e u hu
            unfold popLoop at e
            split at e
            · cases e; exact hu
            · cases e
          | succ k ih =>
            intro a b e u hu
            unfold popLoop at e
            split at e
            · cases e; exact hu
            · split at e
              · split at e
                · cases e
                · obtain ⟨c, c1, c2⟩ := Option.bind_eq_some_iff.mp e
                  exact ih c b c2 u (hvis _ _ _ _ c1 u hu)
              · cases e; exact hu
        intro u hu hn
        exact key _ _ _ g1 u (hdone u hu hn)
      by_cases hsv : confAt s'.conf v = none
      · have hwt : s'.waiting = [] := by
          rcases g3 with g3 | g3
          · exact g3
          · exact absurd hsv (all_set g2.len (le_trans g3 g2.count) v hv)
        have hAB : A' = [] ∧ B' = [] := by
          have := g2.waiting
          rw [hwt] at this
          simpa using this.symm
        obtain ⟨rfl, rfl⟩ := hAB
        have hvl : v < s'.conf.length := by rw [g2.len]; exact hv
        have hvK : v ∉ K := by
          intro hk
          obtain ⟨x, x1, _⟩ := g2.opt
          have := g2.known x x x1 x1.1 (hq.ordered.order.irrefl _) v hk
          rw [hsv] at this
          cases this
        obtain ⟨l, y, y1, y2, y3⟩ := pick_marginal hq h hv g2.len hsv
        rw [y1]
        simp only [Option.bind_some]
        have hfar : ∀ u, Link p.scopes (· ∉ K) v u → confAt s'.conf u = none := fun u hl => g2.ginv.apart (by simp) hsv (by simp) hl
        have hS := g2.put hq h (pd' := fun _ => False) hv hsv (l := l) (g2.ginv.put_apart (l := l) hsv hvK hfar) (fun _ => False) (by simp) y2.1 (by simp) (fun u hu _ => y2.2 u hu) y3 (by
          intro u hu hl
          exact hu.2 (hfar u (hl.mono (fun _ h => h.1)))) (fx := s'.fixed) (by omega)
        refine outerLoop_spec hr' ?_ hS
        intro u hu hn
        simp only
        rw [confAt_set hvl]
        by_cases huv : u = v
        · subst huv; simp [put]
        · exact put_ne (hkeep u hu (by simp [huv, hn]))
      · have hset : setFromMarginal q m v s' = some s' := by
          unfold setFromMarginal
          rw [confAt_get (by rw [g2.len]; exact hv)]
          cases hc : confAt s'.conf v with
          | none => exact absurd hc hsv
          | some l => rfl
        rw [hset]
        simp only [Option.bind_some]
        refine outerLoop_spec hr' ?_ g2
        intro u hu hn
        by_cases huv : u = v
        · subst huv; exact hsv
        · exact hkeep u hu (by simp [huv, hn])
    · rw [if_neg hfx]
      exact ⟨s, A, B, rfl, hI, all_set hI.len (le_trans (by rw [← hlab]; omega) hI.count)⟩

omit hq h in
/-- The given labels. -/
theorem giveLabels_spec {n : Nat} : ∀ {known : List (Nat × Nat)} {s : Search}, (known.map (fun e => e.1)).Nodup → (∀ e ∈ known, e.1 < n) → s.conf.length = n →
    (∀ e ∈ known, confAt s.conf e.1 = none) →
    ∃ s', giveLabels n known s = some s' ∧ s'.conf.length = n ∧ s'.waiting = (known.map (fun e => e.1)).reverse ++ s.waiting ∧
      s'.fixed = s.fixed + known.length ∧ s'.conf.countP Option.isSome = s.conf.countP Option.isSome + known.length ∧ (∀ e ∈ known, confAt s'.conf e.1 = some e.2) ∧
      ∀ v, v ∉ known.map (fun e => e.1) → confAt s'.conf v = confAt s.conf v
  | [], s, _, _, hl, _ => ⟨s, rfl, hl, by simp, by simp, by simp, by simp, by simp⟩
  | (v, l) :: known, s, hnd, hr, hl, hu => by
    have hv : v < n := hr (v, l) List.mem_cons_self
    have hvl : v < s.conf.length := by omega
    have hnd' := List.nodup_cons.mp (by simpa using hnd : (v :: known.map (fun e => e.1)).Nodup)
    have hc := confAt_set (l := l) hvl
    have huv : confAt s.conf v = none := hu (v, l) List.mem_cons_self
    obtain ⟨s', h1, h2, h3, h4, h5, h6, h7⟩ := giveLabels_spec (n := n) (known := known) (s := ⟨s.conf.set v (some l), s.fixed + 1, v :: s.waiting⟩) hnd'.2
      (fun e he => hr e (List.mem_cons_of_mem _ he)) (by simpa using hl) (by
        intro e he
        simp only
        rw [hc, put, if_neg (by rintro e1; exact hnd'.1 (by rw [← e1]; exact List.mem_map.mpr ⟨e, he, rfl⟩))]
        exact hu e (List.mem_cons_of_mem _ he))
    refine ⟨s', ?_, h2, ?_, ?_, ?_, ?_, ?_⟩
    · unfold giveLabels
      rw [if_pos hv]
      exact h1
    · rw [h3]; simp
    · rw [h4]; simp; omega
    · rw [h5, countP_put hvl huv]; simp; omega
    · intro e he
      rcases List.mem_cons.mp he with rfl | he
      · rw [h7 v hnd'.1]
        simp only
        rw [hc]
        simp [put]
      · exact h6 e he
    · intro u hu'
      simp only [List.map_cons, List.mem_cons, not_or] at hu'
      rw [h7 u hu'.2]
      simp only
      rw [hc, put, if_neg hu'.1]

/-- There is a best labeling. -/
theorem exists_best (C : List Nat → Prop) (hC : ∃ x, p.Labeling x ∧ C x) : ∃ x, p.Best q.o q.bop C x := by
  classical
  obtain ⟨x0, h1, h2⟩ := hC
  have hm : ∀ x, x ∈ (allTuples p.numLabels).filter (fun x => decide (C x)) ↔ p.Labeling x ∧ C x := by
    intro x
    rw [List.mem_filter, mem_allTuples, labeling_inShape]
    simp
  obtain ⟨⟨x, x1, x2⟩, x3⟩ := accumulate_min hq.ordered.order hq.ordered.total hq.neutral (p.energy q.o) (List.ne_nil_of_mem ((hm x0).mpr ⟨h1, h2⟩))
  rw [x2] at x3
  exact ⟨x, ((hm x).mp x1).1, ((hm x).mp x1).2, fun y hy hc => x3 y ((hm y).mpr ⟨hy, hc⟩)⟩

theorem exists_labeling : ∃ x, p.Labeling x := by
  refine ⟨p.numLabels.map (fun _ => 0), labeling_inShape.mpr ?_⟩
  have : ∀ nl : List Nat, (∀ n ∈ nl, 0 < n) → InShape nl (nl.map (fun _ => 0)) := by
    intro nl
    induction nl with
    | nil => intro _; trivial
    | cons n nl ih => intro h; exact ⟨h n List.mem_cons_self, ih (fun k hk => h k (List.mem_cons_of_mem _ hk))⟩
  exact this _ h.positive

/-- From a start of the search that satisfies the invariant. -/
theorem constrainedOptimum_of {known : List (Nat × Nat)} {s : Search} {A B : List Nat}
    (hs : giveLabels p.numLabels.length known ⟨List.replicate p.numLabels.length none, 0, []⟩ = some s) (hI : SInv q p C K s A B (fun _ => False)) :
    ∃ x, constrainedOptimum q m known = some (x.map some) ∧ p.Best q.o q.bop C x := by
  have hlab : m.gm.numLabels = p.numLabels := h.represents.labels
  obtain ⟨s', A', B', g1, g2, g3⟩ := outerLoop_spec hq h (vs := List.range p.numLabels.length) (s := s) (by simp) (fun v hv hn => absurd (List.mem_range.mpr hv) hn) hI
  obtain ⟨x, x1, x2⟩ := g2.opt
  refine ⟨x, ?_, x1⟩
  unfold constrainedOptimum
  rw [hlab, hs]
  simp only
  rw [g1]
  simp only [Option.map_some, Option.some.injEq]
  apply List.ext_getElem?
  intro v
  by_cases hv : v < p.numLabels.length
  · rw [confAt_get (by rw [g2.len]; exact hv), List.getElem?_map]
    have hxl : v < x.length := by rw [x1.1.1]; exact hv
    rw [List.getElem?_eq_getElem hxl]
    cases hc : confAt s'.conf v with
    | none => exact absurd hc (g3 v hv)
    | some l =>
      have := x2 v l hc
      simp [List.getD, hxl] at this
      simp [this]
  · rw [List.getElem?_eq_none (by rw [g2.len]; omega), List.getElem?_eq_none (by rw [List.length_map, x1.1.1]; omega)]

omit hq h in
theorem confAt_none (n v : Nat) : confAt (List.replicate n (none : Option Nat)) v = none := by
  simp only [confAt, List.getD, List.getElem?_replicate]
  split <;> rfl

/-- `constrainedOptimum` for labels that all optimal labelings have. -/
theorem constrainedOptimum_known {known : List (Nat × Nat)} (hnd : (known.map (fun e => e.1)).Nodup) (hr : ∀ e ∈ known, e.1 < p.numLabels.length)
    (hk : ∀ e ∈ known, ∀ x, p.Optimum q.o q.bop x → x.getD e.1 0 = e.2) :
    ∃ x, constrainedOptimum q m known = some (x.map some) ∧ p.Optimum q.o q.bop x := by
  obtain ⟨s, s1, s2, s3, s4, s5, s6, s7⟩ := giveLabels_spec (n := p.numLabels.length) (known := known) (s := ⟨List.replicate p.numLabels.length none, 0, []⟩) hnd hr (by simp)
    (fun e _ => confAt_none _ e.1)
  obtain ⟨l0, hl0⟩ := exists_labeling hq h
  obtain ⟨x0, hx0⟩ := exists_best hq h (fun _ => True) ⟨l0, hl0, trivial⟩
  have hopt : ∀ x, p.Best q.o q.bop (fun _ => True) x ↔ p.Optimum q.o q.bop x := by
    intro x
    exact ⟨fun ⟨h1, _, h3⟩ => ⟨h1, fun y hy => h3 y hy trivial⟩, fun ⟨h1, h2⟩ => ⟨h1, trivial, fun y hy _ => h2 y hy⟩⟩
  have hKset : ∀ v, v ∈ known.map (fun e => e.1) → ∀ x, p.Optimum q.o q.bop x → confAt s.conf v = some (x.getD v 0) := by
    intro v hv x hx
    obtain ⟨e, e1, rfl⟩ := List.mem_map.mp hv
    rw [s6 e e1, hk e e1 x hx]
  have hnoc : ∀ v, ¬ Chosen {v | v ∈ known.map (fun e => e.1)} (confAt s.conf) v := by
    rintro v ⟨h1, h2⟩
    exact h2 (by rw [s7 v h1]; exact confAt_none _ v)
  have hI : SInv q p (fun _ => True) {v | v ∈ known.map (fun e => e.1)} s [] s.waiting (fun _ => False) := by
    refine ⟨rfl, s2, ⟨fun v hv => absurd hv (hnoc v), fun v _ hv => absurd hv (hnoc v), by simp⟩, ⟨x0, hx0, ?_⟩, ?_, fun _ _ _ => trivial, ?_, ?_⟩
    · intro v l hl
      by_cases hv : v ∈ known.map (fun e => e.1)
      · rw [hKset v hv x0 ((hopt x0).mp hx0)] at hl
        exact Option.some.inj hl
      · rw [s7 v hv, confAt_none] at hl
        cases hl
    · intro x y hx hy hb k hk
      refine hKset k hk y ⟨hy, fun u hu => ?_⟩
      exact not_better_trans hq.ordered.order hq.ordered.total (hx.2.2 u hu trivial) hb
    · intro b hb
      rw [s3] at hb
      simpa using hb
    · rw [s4, s5]; simp
  obtain ⟨x, x1, x2⟩ := constrainedOptimum_of hq h s1 hI
  exact ⟨x, x1, (hopt x).mp x2⟩

omit hq h in
theorem link_reachable {S : List (List Nat)} {X : Nat → Prop} {u v : Nat} (hl : Link S X u v) : (bipartite S).Reachable (.inl u) (.inl v) := by
  induction hl with
  | refl => exact SimpleGraph.Reachable.refl _
  | tail _ hc ih =>
    obtain ⟨_, g, g1, g2⟩ := hc
    exact ih.trans ((SimpleGraph.Adj.reachable (adj_iff.mpr g1)).trans (SimpleGraph.Adj.reachable (adj_iff'.mpr g2)))

/-- `constrainedOptimum` for labels of variables of different trees. -/
theorem constrainedOptimum_apart {known : List (Nat × Nat)} (hr : ∀ e ∈ known, e.1 < p.numLabels.length) (hlab : ∀ e ∈ known, e.2 < p.numLabels.getD e.1 0)
    (hap : (known.map (fun e => e.1)).Pairwise (fun a b => ¬ (bipartite p.scopes).Reachable (.inl a) (.inl b))) :
    ∃ x, constrainedOptimum q m known = some (x.map some) ∧ p.Best q.o q.bop (fun x => ∀ e ∈ known, x.getD e.1 0 = e.2) x := by
  have hnd : (known.map (fun e => e.1)).Nodup := hap.imp (fun hn e => by subst e; exact hn (SimpleGraph.Reachable.refl _))
  obtain ⟨s, s1, s2, s3, s4, s5, s6, s7⟩ := giveLabels_spec (n := p.numLabels.length) (known := known) (s := ⟨List.replicate p.numLabels.length none, 0, []⟩) hnd hr (by simp)
    (fun e _ => confAt_none _ e.1)
  have hset : ∀ v, confAt s.conf v ≠ none → v ∈ known.map (fun e => e.1) := by
    intro v hv
    by_contra hn
    exact hv (by rw [s7 v hn]; exact confAt_none _ v)
  have hset' : ∀ v, v ∈ known.map (fun e => e.1) → confAt s.conf v ≠ none := by
    intro v hv
    obtain ⟨e, e1, rfl⟩ := List.mem_map.mp hv
    rw [s6 e e1]; simp
  have hcons : ∀ u : List Nat, Consistent (confAt s.conf) u ↔ ∀ e ∈ known, u.getD e.1 0 = e.2 := by
    intro u
    constructor
    · intro hc e he
      exact hc _ _ (s6 e he)
    · intro hc v l hl
      obtain ⟨e, e1, rfl⟩ := List.mem_map.mp (hset v (by rw [hl]; simp))
      rw [s6 e e1] at hl
      rw [hc e e1]
      exact Option.some.inj hl
  have hex : ∃ x, p.Labeling x ∧ ∀ e ∈ known, x.getD e.1 0 = e.2 := by
    have e1 : ∀ u, u < p.numLabels.length → ((List.range p.numLabels.length).map (fun u => (confAt s.conf u).getD 0)).getD u 0 = (confAt s.conf u).getD 0 := by
      intro u hu; simp [List.getD, hu]
    refine ⟨(List.range p.numLabels.length).map (fun u => (confAt s.conf u).getD 0), ?_, ?_⟩
    · rw [labeling_get]
      refine ⟨by simp, fun u hu => ?_⟩
      rw [e1 u hu]
      by_cases hk : u ∈ known.map (fun e => e.1)
      · obtain ⟨e, he, rfl⟩ := List.mem_map.mp hk
        rw [s6 e he]
        exact hlab e he
      · rw [s7 u hk]
        simp only
        rw [confAt_none]
        have := h.positive p.numLabels[u] (List.getElem_mem hu)
        simpa [List.getD, hu] using this
    · intro e he
      rw [e1 e.1 (hr e he), s6 e he]; rfl
  obtain ⟨x0, hx0⟩ := exists_best hq h _ hex
  have hwait : ∀ v, v ∈ s.waiting ↔ v ∈ known.map (fun e => e.1) := by
    intro v
    rw [s3]; simp
  refine constrainedOptimum_of hq h (K := ∅) (A := s.waiting) (B := []) s1 ⟨by simp, s2, ⟨?_, ?_, ?_⟩, ⟨x0, hx0, (hcons x0).mpr hx0.2.1⟩, by simp, fun u _ hc => (hcons u).mp hc, by simp, ?_⟩
  · intro v hv g hg
    exact Or.inr (Or.inl ⟨v, (hwait v).mpr (hset v hv.2), hg⟩)
  · intro v v' hv hv' hl
    by_cases e : v = v'
    · subst e; exact Relation.ReflTransGen.refl
    · exfalso
      have hreach := link_reachable hl
      have key : ∀ l : List Nat, l.Pairwise (fun a b => ¬ (bipartite p.scopes).Reachable (.inl a) (.inl b)) → v ∈ l → v' ∈ l → False := by
        intro l
        induction l with
        | nil => intro _ h; simp at h
        | cons a l ih =>
          intro hp h1 h2
          rw [List.pairwise_cons] at hp
          rcases List.mem_cons.mp h1 with h3 | h3 <;> rcases List.mem_cons.mp h2 with h4 | h4
          · exact e (h3.trans h4.symm)
          · exact hp.1 v' h4 (h3 ▸ hreach)
          · exact hp.1 v h3 (h4 ▸ hreach.symm)
          · exact ih hp.2 h3 h4
      exact key _ hap (hset v hv.2) (hset v' hv'.2)
  · intro a ha
    exact ⟨by simp, hset' a ((hwait a).mp ha)⟩
  · rw [s4, s5]; simp

/-- `modeFromFactorMarginal` on a forest with exact marginals. -/
theorem modeFromFactorMarginal_spec : ∃ x, modeFromFactorMarginal q m = some (x.map some) ∧ p.Optimum q.o q.bop x := by
  have hlab : m.gm.numLabels = p.numLabels := h.represents.labels
  obtain ⟨known, k1, k2, k3⟩ := knownLoop_spec hq h (vs := List.range p.numLabels.length) (by simp)
  obtain ⟨x, x1, x2⟩ := constrainedOptimum_known hq h (known := known) (k2.nodup List.nodup_range) (by
    intro e he
    have := k2.subset (List.mem_map.mpr ⟨e, he, rfl⟩)
    simpa using this) k3
  refine ⟨x, ?_, x2⟩
  unfold modeFromFactorMarginal
  rw [hlab, k1]
  exact x1

/-! ### `modeFromMarginal` -/

omit h in
theorem bestFrom_spec {out : List V} : ∀ (n i : Nat) (s : V × Nat), i + n ≤ out.length → s.2 < i → out[s.2]? = some s.1 → (∀ j b, j < i → out[j]? = some b → q.bop b s.1 = false) →
    ∃ s', bestFrom q.bop out n i s = some s' ∧ s'.2 < i + n ∧ out[s'.2]? = some s'.1 ∧ ∀ j b, j < i + n → out[j]? = some b → q.bop b s'.1 = false
  | 0, i, s, _, h1, h2, h3 => ⟨s, rfl, h1, h2, h3⟩
  | n + 1, i, s, hl, h1, h2, h3 => by
    have hi : i < out.length := by omega
    unfold bestFrom
    have hb : out[i]? = some out[i] := List.getElem?_eq_getElem hi
    rw [hb]
    simp only
    generalize out[i] = b at hb
    have e : i + (n + 1) = i + 1 + n := by omega
    rw [e]
    by_cases hbo : q.bop b s.1 = true
    · rw [if_pos hbo]
      refine bestFrom_spec n (i + 1) _ (by omega) (by simp only; omega) hb ?_
      intro j b' hj hb'
      simp only
      by_cases hji : j = i
      · subst hji
        rw [hb] at hb'
        cases hb'
        exact hq.ordered.order.irrefl _
      · have h4 := h3 j b' (by omega) hb'
        by_contra hn
        rw [Bool.not_eq_false] at hn
        rw [hq.ordered.order.trans _ _ _ hn hbo] at h4
        cases h4
    · rw [if_neg hbo]
      refine bestFrom_spec n (i + 1) _ (by omega) (by omega) h2 ?_
      intro j b' hj hb'
      by_cases hji : j = i
      · subst hji
        rw [hb] at hb'
        cases hb'
        simpa using hbo
      · exact h3 j b' (by omega) hb'

theorem modeLoop_spec : ∀ {vs : List Nat}, (∀ v ∈ vs, v < p.numLabels.length) →
    ∃ x, modeFromMarginalLoop q m vs = some x ∧ List.Forall₂ (fun v l => ∃ y, p.Optimum q.o q.bop y ∧ y.getD v 0 = l) vs x
  | [], _ => ⟨[], rfl, .nil⟩
  | v :: vs, hr => by
    have hv := hr v List.mem_cons_self
    obtain ⟨x, x1, x2⟩ := modeLoop_spec (vs := vs) (fun w hw => hr w (List.mem_cons_of_mem _ hw))
    obtain ⟨out, o1, o2⟩ := h.marginal v hv
    have hol := o2.2.choose_spec.2.1
    simp only [List.length_map, List.length_range] at hol
    have hpos : 0 < p.numLabels.getD v 0 := h.positive _ (by simp [List.getD, hv])
    have h0 : 0 < out.length := by omega
    obtain ⟨s, s1, s2, s3, s4⟩ := bestFrom_spec hq (out := out) (p.numLabels.getD v 0 - 1) 1 (out[0], 0) (by omega) (by simp) (List.getElem?_eq_getElem h0) (by
      intro j b hj hb
      have : j = 0 := by omega
      subst this
      rw [List.getElem?_eq_getElem h0] at hb
      cases hb
      exact hq.ordered.order.irrefl _)
    have e1 : 1 + (p.numLabels.getD v 0 - 1) = p.numLabels.getD v 0 := by omega
    rw [e1] at s2 s4
    have hn : m.gm.numLabels[v]? = some (p.numLabels.getD v 0) := by rw [h.represents.labels]; simp [List.getD, hv]
    refine ⟨s.2 :: x, ?_, .cons (optimum_of_label hq h hv s2 o2 s3 s4) x2⟩
    unfold modeFromMarginalLoop
    rw [o1, hn]
    simp only
    rw [List.getElem?_eq_getElem h0]
    simp only
    rw [s1]
    simp only
    rw [x1]
    rfl

theorem modeFromMarginal_spec : ∃ x, modeFromMarginal q m = some x ∧ x.length = p.numLabels.length ∧
    ∀ v, v < p.numLabels.length → ∃ y, p.Optimum q.o q.bop y ∧ y.getD v 0 = x.getD v 0 := by
  obtain ⟨x, x1, x2⟩ := modeLoop_spec hq h (vs := List.range p.numLabels.length) (by simp)
  have hl := x2.length_eq
  rw [List.length_range] at hl
  refine ⟨x, ?_, hl.symm, fun v hv => ?_⟩
  · unfold modeFromMarginal
    rw [h.represents.labels]
    exact x1
  · have := (List.forall₂_iff_get.mp x2).2 v (by simpa using hv) (by omega)
    simp only [List.get_eq_getElem, List.getElem_range] at this
    obtain ⟨y, y1, y2⟩ := this
    exact ⟨y, y1, by rw [y2]; simp [List.getD, hl ▸ hv]⟩

end

end OpenGM.Mode
