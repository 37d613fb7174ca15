import Verif.Lemmas.ManipulatorBuild
import Verif.Lemmas.Built
/-
GraphicalModelManipulator: histories of calls.
-/
namespace OpenGM
open Spec
namespace Manipulator
variable {V : Type}

theorem fillIn_pick : ∀ (fix : List (Option Nat)) (x : List Nat), x.length = fix.length → Respects fix x → fillIn fix (pick (freeSel fix) x) = x
  | [], [], _, _ => rfl
  | [], a :: x, h, _ => by simp at h
  | a :: fix, [], h, _ => by simp at h
  | some l :: fix, a :: x, h, hr => by
    have ih := fillIn_pick fix x (by simpa using h) (fun v l h => by have := hr (v + 1) l (by simpa using h); simpa using this)
    have h0 := hr 0 l rfl
    simp only [List.getElem?_cons_zero, Option.some.injEq] at h0
    subst h0
    have : pick (freeSel (some a :: fix)) (a :: x) = pick (freeSel fix) x := by simp [pick, freeSel]
    rw [this]
    simp [fillIn, ih]
  | none :: fix, a :: x, h, hr => by
    have ih := fillIn_pick fix x (by simpa using h) (fun v l h => by have := hr (v + 1) l (by simpa using h); simpa using this)
    have : pick (freeSel (none :: fix)) (a :: x) = a :: pick (freeSel fix) x := by simp [pick, freeSel]
    rw [this]
    simp [fillIn, ih]

/-- The members of a manipulator after a history. -/
structure Inv (o : Operation V) (gm : GM V) (mode : Mode) (p : Problem V) (s : Fixing) (m : Manip V) : Prop where
  d : Describes m p s.fix
  gm_ : m.gm = gm
  mode_ : m.mode = mode
  locked : m.locked = s.locked
  ten : m.tentacleFactor = if s.wasLocked then List.replicate gm.factors.length false else []
  builtLocked : s.built = true → s.locked = true
  builtSubLocked : s.builtSub = true → s.locked = true
  built : s.built = true → ∃ q, Represents m.mgm ⟨freeLabels s.fix p.numLabels, q⟩ ∧
    ∀ ml, (⟨freeLabels s.fix p.numLabels, q⟩ : Problem (Option V)).Labeling ml →
      (⟨freeLabels s.fix p.numLabels, q⟩ : Problem (Option V)).energy (liftOp o) ml = some (modifiedEnergy o mode p s.fix (fillIn s.fix ml))
  builtSub : s.builtSub = true → ∃ count, SubsBuilt o mode p s.fix count (max count 1) m.var2subProblem m.submodels

theorem encodes_init (n : Nat) (fl : List Nat) (h : fl.length = n) : Encodes (List.replicate n false) fl (List.replicate n none) := by
  refine ⟨by simp, by simp [h], ?_, ?_⟩
  · intro v l hv
    rw [List.getElem?_replicate] at hv
    split at hv <;> simp at hv
  · intro v hv
    have := (List.getElem?_eq_some_iff.mp hv).1
    rw [List.getElem?_replicate, if_pos (by simpa using this)]

theorem map_const {α β : Type} (l : List α) (b : β) : l.map (fun _ => b) = List.replicate l.length b := by
  induction l with
  | nil => rfl
  | cons a l ih => simp [ih, List.replicate_succ]

theorem inv_construct (o : Operation V) {gm : GM V} {p : Problem V} (hr : Represents gm p) (hpos : ∀ n ∈ p.numLabels, 0 < n) (mode : Mode) :
    Inv o gm mode p (Fixing.init p.numLabels.length) (construct gm mode) := by
  have hn : gm.numberOfVariables = p.numLabels.length := by rw [GM.numberOfVariables, hr.labels]
  refine ⟨⟨hr, ?_, by simp [Fixing.init], ?_, by simp [construct, Fixing.init, hn], hpos⟩, rfl, rfl, rfl, rfl, by simp [Fixing.init], by simp [Fixing.init],
    by simp [Fixing.init], by simp [Fixing.init]⟩
  · simp only [construct, Fixing.init, hn]
    exact encodes_init _ _ (by simp)
  · intro v l n h
    simp only [Fixing.init, List.getElem?_replicate] at h
    split at h <;> simp at h

theorem inv_step {o : Operation V} (ho : o.IsCommMonoid) {gm : GM V} {p : Problem V} {mode : Mode} {s : Fixing} {m : Manip V} (h : Inv o gm mode p s m)
    (op : FixOp) (hv : op.Valid p.numLabels s) (hsub : op = .buildSub → mode = .fix → ∀ t ∈ p.terms, t.vars ≠ []) :
    ∃ m', step o m op = some m' ∧ Inv o gm mode p (op.apply s) m' := by
  obtain ⟨hrep, henc, hlen, hrange, hv2s, hpos⟩ := h.d
  cases op with
  | fix v l =>
    simp only [FixOp.Valid] at hv
    obtain ⟨n, hv2, hv3⟩ := hv
    have hvn : v < p.numLabels.length := (List.getElem?_eq_some_iff.mp hv2).1
    simp only [step, fixVariable, h.locked, FixOp.apply]
    cases hlk : s.locked with
    | true => exact ⟨m, rfl, h⟩
    | false =>
      have hnb : s.built = true → False := fun hb => by rw [h.builtLocked hb] at hlk; simp at hlk
      have hnbs : s.builtSub = true → False := fun hb => by rw [h.builtSubLocked hb] at hlk; simp at hlk
      simp only [Bool.false_eq_true, if_false]
      rw [setAt_of_lt _ (by rw [henc.lenV, hlen]; exact hvn)]
      simp only
      rw [setAt_of_lt _ (by rw [henc.lenL, hlen]; exact hvn)]
      refine ⟨_, rfl, ⟨⟨hrep, ⟨by simp [henc.lenV], by simp [henc.lenL], ?_, ?_⟩, by simp [hlen], ?_, by simp [hv2s], hpos⟩, h.gm_, h.mode_, by simpa using h.locked.trans hlk, h.ten,
        fun hb => (hnb hb).elim, fun hb => (hnbs hb).elim, fun hb => (hnb hb).elim, fun hb => (hnbs hb).elim⟩⟩
      · intro w l' hw
        by_cases hwv : w = v
        · subst hwv
          simp only [List.getElem?_set_self (show w < s.fix.length by omega), Option.some.injEq] at hw
          subst hw
          refine ⟨?_, ?_⟩
          · simp only; rw [List.getElem?_set_self (by rw [henc.lenV]; omega)]
          · simp only; rw [List.getElem?_set_self (by rw [henc.lenL]; omega)]
        · simp only [List.getElem?_set_ne (Ne.symm hwv)] at hw ⊢
          exact henc.fixed w l' hw
      · intro w hw
        by_cases hwv : w = v
        · subst hwv
          simp only [List.getElem?_set_self (show w < s.fix.length by omega), Option.some.injEq] at hw
          simp at hw
        · simp only [List.getElem?_set_ne (Ne.symm hwv)] at hw ⊢
          exact henc.free w hw
      · intro w l' k hw hk
        by_cases hwv : w = v
        · subst hwv
          simp only [List.getElem?_set_self (show w < s.fix.length by omega), Option.some.injEq] at hw
          subst hw
          rw [hv2] at hk
          simp only [Option.some.injEq] at hk
          omega
        · simp only [List.getElem?_set_ne (Ne.symm hwv)] at hw
          exact hrange w l' k hw hk
  | free v =>
    simp only [FixOp.Valid] at hv
    simp only [step, freeVariable, h.locked, FixOp.apply]
    cases hlk : s.locked with
    | true => exact ⟨m, rfl, h⟩
    | false =>
      have hnb : s.built = true → False := fun hb => by rw [h.builtLocked hb] at hlk; simp at hlk
      have hnbs : s.builtSub = true → False := fun hb => by rw [h.builtSubLocked hb] at hlk; simp at hlk
      simp only [Bool.false_eq_true, if_false]
      rw [setAt_of_lt _ (by rw [henc.lenV, hlen]; exact hv)]
      simp only [Option.map_some]
      refine ⟨_, rfl, ⟨⟨hrep, ⟨by simp [henc.lenV], by simp [henc.lenL], ?_, ?_⟩, by simp [hlen], ?_, by simp [hv2s], hpos⟩, h.gm_, h.mode_, by simpa using h.locked.trans hlk, h.ten,
        fun hb => (hnb hb).elim, fun hb => (hnbs hb).elim, fun hb => (hnb hb).elim, fun hb => (hnbs hb).elim⟩⟩
      · intro w l' hw
        by_cases hwv : w = v
        · subst hwv
          simp only [List.getElem?_set_self (show w < s.fix.length by omega), Option.some.injEq] at hw
          simp at hw
        · simp only [List.getElem?_set_ne (Ne.symm hwv)] at hw ⊢
          exact henc.fixed w l' hw
      · intro w hw
        by_cases hwv : w = v
        · subst hwv
          simp only
          rw [List.getElem?_set_self (by rw [henc.lenV]; omega)]
        · simp only [List.getElem?_set_ne (Ne.symm hwv)] at hw ⊢
          exact henc.free w hw
      · intro w l' k hw hk
        by_cases hwv : w = v
        · subst hwv
          simp only [List.getElem?_set_self (show w < s.fix.length by omega), Option.some.injEq] at hw
          simp at hw
        · simp only [List.getElem?_set_ne (Ne.symm hwv)] at hw
          exact hrange w l' k hw hk
  | freeAll =>
    simp only [step, freeAllVariables, h.locked, FixOp.apply]
    cases hlk : s.locked with
    | true => exact ⟨m, rfl, h⟩
    | false =>
      have hnb : s.built = true → False := fun hb => by rw [h.builtLocked hb] at hlk; simp at hlk
      have hnbs : s.builtSub = true → False := fun hb => by rw [h.builtSubLocked hb] at hlk; simp at hlk
      simp only [Bool.false_eq_true, if_false]
      refine ⟨_, rfl, ⟨⟨hrep, ?_, by simp [hlen], ?_, by simp [hv2s], hpos⟩, h.gm_, h.mode_, by simpa using h.locked.trans hlk, h.ten,
        fun hb => (hnb hb).elim, fun hb => (hnbs hb).elim, fun hb => (hnb hb).elim, fun hb => (hnbs hb).elim⟩⟩
      · simp only
        rw [map_const, map_const, henc.lenV]
        exact encodes_init _ _ henc.lenL
      · intro w l' k hw hk
        simp only at hw
        rw [map_const, List.getElem?_replicate] at hw
        split at hw <;> simp at hw
  | lock =>
    refine ⟨_, rfl, ⟨⟨hrep, henc, hlen, hrange, hv2s, hpos⟩, h.gm_, h.mode_, rfl, ?_, fun _ => rfl, fun _ => rfl, h.built, h.builtSub⟩⟩
    simp only [lock, FixOp.apply, h.ten, h.gm_, if_true, GM.numberOfFactors]
    split <;> simp [resize]
  | unlock =>
    simp only [step, unlock, freeAllVariables, FixOp.apply, Bool.false_eq_true, if_false]
    refine ⟨_, rfl, ⟨⟨hrep, ?_, by simp [hlen], ?_, by simp [hv2s], hpos⟩, h.gm_, h.mode_, rfl, h.ten,
        fun hb => by simp at hb, fun hb => by simp at hb, fun hb => by simp at hb, fun hb => by simp at hb⟩⟩
    · simp only
      rw [map_const, map_const, henc.lenV]
      exact encodes_init _ _ henc.lenL
    · intro w l' k hw hk
      simp only at hw
      rw [map_const, List.getElem?_replicate] at hw
      split at hw <;> simp at hw
  | build =>
    simp only [FixOp.Valid] at hv
    have hten : m.tentacleFactor = List.replicate m.gm.factors.length false := by rw [h.ten, hv, h.gm_]; rfl
    obtain ⟨g, q, e1, e2, e3⟩ := buildModifiedModel_spec ho h.d hten
    rw [h.mode_] at e3
    exact ⟨_, e1, ⟨⟨hrep, henc, hlen, hrange, hv2s, hpos⟩, h.gm_, h.mode_, rfl, h.ten, fun _ => rfl, fun _ => rfl, fun _ => ⟨q, e2, e3⟩, h.builtSub⟩⟩
  | buildSub =>
    simp only [FixOp.Valid] at hv
    have hten : m.tentacleFactor = List.replicate m.gm.factors.length false := by rw [h.ten, hv, h.gm_]; rfl
    obtain ⟨count, v2s, subs, e1, e2⟩ := buildModifiedSubModels_spec ho h.d hten (by rw [h.mode_]; exact hsub rfl)
    rw [h.mode_] at e2
    exact ⟨_, e1, ⟨⟨hrep, henc, hlen, hrange, by simp only; rw [e2.comp.len, ← hlen]; rfl, hpos⟩, h.gm_, h.mode_, rfl, h.ten, fun _ => rfl, fun _ => rfl, h.built, fun _ => ⟨count, e2⟩⟩⟩

theorem inv_run {o : Operation V} (ho : o.IsCommMonoid) {gm : GM V} {p : Problem V} {mode : Mode} : ∀ (ops : List FixOp) (s : Fixing) (m : Manip V),
    Inv o gm mode p s m → ValidFixing p.numLabels s ops → (.buildSub ∈ ops → mode = .fix → ∀ t ∈ p.terms, t.vars ≠ []) →
    ∃ m', run o m ops = some m' ∧ Inv o gm mode p (ops.foldl FixOp.apply s) m'
  | [], s, m, h, _, _ => ⟨m, rfl, h⟩
  | op :: ops, s, m, h, hv, hsub => by
    obtain ⟨m1, e1, h1⟩ := inv_step ho h op hv.1 (fun he => hsub (by simp [he]))
    obtain ⟨m2, e2, h2⟩ := inv_run ho ops _ m1 h1 hv.2 (fun he => hsub (by simp [he]))
    refine ⟨m2, ?_, h2⟩
    unfold run
    rw [List.foldlM_cons, e1]
    exact e2

end Manipulator
end OpenGM
