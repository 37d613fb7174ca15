import Verif.Lemmas.Manipulator
import Verif.Lemmas.EnergySum
/-
GraphicalModelManipulator: `buildModifiedModel`.
-/
namespace OpenGM
open Spec
namespace Manipulator
variable {V : Type}

/-- Number of selected positions before `v`. -/
def rank (sel : List Bool) (v : Nat) : Nat := (sel.take v).count true

/-- The selected entries. -/
def pick (sel : List Bool) (xs : List Nat) : List Nat := ((sel.zip xs).filter Prod.fst).map Prod.snd

theorem rank_succ {sel : List Bool} {v : Nat} {b : Bool} (h : sel[v]? = some b) : rank sel (v + 1) = rank sel v + (if b then 1 else 0) := by
  unfold rank
  rw [List.take_add_one, h, List.count_append]
  cases b <;> simp

theorem rank_mono {sel : List Bool} {v w : Nat} (h : v ≤ w) : rank sel v ≤ rank sel w := by
  unfold rank
  apply List.Sublist.count_le
  exact List.take_sublist_take_left h

theorem rank_lt {sel : List Bool} {v w : Nat} (hv : sel[v]? = some true) (h : v < w) : rank sel v < rank sel w := by
  have h1 := rank_succ hv
  have h2 := rank_mono (sel := sel) (show v + 1 ≤ w by omega)
  simp at h1
  omega

theorem pick_rank : ∀ (sel : List Bool) (xs : List Nat) (v : Nat), sel[v]? = some true → (pick sel xs)[rank sel v]? = xs[v]?
  | [], xs, v, h => by simp at h
  | b :: sel, [], v, h => by simp [pick]
  | b :: sel, x :: xs, 0, h => by
    simp only [List.getElem?_cons_zero, Option.some.injEq] at h
    subst h
    simp [pick, rank]
  | b :: sel, x :: xs, v + 1, h => by
    have ih := pick_rank sel xs v (by simpa using h)
    cases b with
    | true =>
      have h1 : pick (true :: sel) (x :: xs) = x :: pick sel xs := by simp [pick]
      have h2 : rank (true :: sel) (v + 1) = rank sel v + 1 := by simp [rank]
      rw [h1, h2]
      simpa using ih
    | false =>
      have h1 : pick (false :: sel) (x :: xs) = pick sel xs := by simp [pick]
      have h2 : rank (false :: sel) (v + 1) = rank sel v := by simp [rank]
      rw [h1, h2]
      simpa using ih

theorem length_pick : ∀ (sel : List Bool) (xs : List Nat), sel.length = xs.length → (pick sel xs).length = rank sel sel.length
  | [], [], _ => rfl
  | [], _ :: _, h => by simp at h
  | _ :: _, [], h => by simp at h
  | b :: sel, x :: xs, h => by
    have ih := length_pick sel xs (by simpa using h)
    unfold pick rank at *
    cases b
    · simpa using ih
    · simpa using ih

theorem pick_mem : ∀ (sel : List Bool) (xs : List Nat) (c a : Nat), (pick sel xs)[c]? = some a →
    ∃ v, sel[v]? = some true ∧ xs[v]? = some a ∧ rank sel v = c
  | [], xs, c, a, h => by simp [pick] at h
  | b :: sel, [], c, a, h => by simp [pick] at h
  | b :: sel, x :: xs, c, a, h => by
    cases b with
    | false =>
      have h1 : pick (false :: sel) (x :: xs) = pick sel xs := by simp [pick]
      rw [h1] at h
      obtain ⟨v, h2, h3, h4⟩ := pick_mem sel xs c a h
      exact ⟨v + 1, by simpa using h2, by simpa using h3, by simpa [rank] using h4⟩
    | true =>
      have h1 : pick (true :: sel) (x :: xs) = x :: pick sel xs := by simp [pick]
      rw [h1] at h
      cases c with
      | zero => exact ⟨0, by simp, by simpa using h, by simp [rank]⟩
      | succ c =>
        obtain ⟨v, h2, h3, h4⟩ := pick_mem sel xs c a (by simpa using h)
        exact ⟨v + 1, by simpa using h2, by simpa using h3, by simpa [rank] using h4⟩

theorem pick_take_succ {sel : List Bool} {xs : List Nat} {v a : Nat} {b : Bool} (hs : sel[v]? = some b) (hx : xs[v]? = some a) :
    pick (sel.take (v + 1)) (xs.take (v + 1)) = pick (sel.take v) (xs.take v) ++ (if b then [a] else []) := by
  obtain ⟨h1, rfl⟩ := List.getElem?_eq_some_iff.mp hs
  obtain ⟨h2, rfl⟩ := List.getElem?_eq_some_iff.mp hx
  rw [List.take_add_one, List.take_add_one, hs, hx]
  unfold pick
  rw [List.zip_append (by rw [List.length_take, List.length_take]; omega)]
  rw [List.filter_append, List.map_append]
  congr 1
  cases sel[v] <;> simp

theorem length_pick_take {sel : List Bool} {xs : List Nat} (hl : sel.length = xs.length) (v : Nat) (hv : v ≤ sel.length) :
    (pick (sel.take v) (xs.take v)).length = rank sel v := by
  rw [length_pick _ _ (by simp [hl])]
  unfold rank
  rw [List.length_take, Nat.min_eq_left hv, List.take_take, Nat.min_self]

/-- The free variables. -/
def freeSel (fix : List (Option Nat)) : List Bool := fix.map Option.isNone

theorem freeSel_iff (fix : List (Option Nat)) (v : Nat) : (freeSel fix)[v]? = some true ↔ v < fix.length ∧ isFree fix v = true := by
  unfold freeSel isFree fx
  rw [List.getElem?_map]
  by_cases h : v < fix.length
  · rw [List.getElem?_eq_getElem h]; simp [h]
  · rw [List.getElem?_eq_none (by omega)]; simp; omega

theorem freeLabels_eq (fix : List (Option Nat)) (nl : List Nat) : freeLabels fix nl = pick (freeSel fix) nl := by
  unfold freeLabels pick freeSel
  induction fix generalizing nl with
  | nil => simp
  | cons a fix ih =>
    cases nl with
    | nil => simp
    | cons n nl => cases a <;> simp [ih]

theorem fillIn_free : ∀ (fix : List (Option Nat)) (ml : List Nat) (v : Nat), ml.length = rank (freeSel fix) fix.length → v < fix.length →
    isFree fix v = true → (fillIn fix ml)[v]? = ml[rank (freeSel fix) v]?
  | [], ml, v, _, h, _ => by simp at h
  | some l :: fix, ml, 0, hl, h, hf => by simp [isFree, fx] at hf
  | some l :: fix, ml, v + 1, hl, h, hf => by
    have := fillIn_free fix ml v (by simpa [rank, freeSel] using hl) (by simpa using h) (by simpa [isFree, fx] using hf)
    simpa [fillIn, rank, freeSel] using this
  | none :: fix, [], v, hl, h, hf => by simp [rank, freeSel] at hl
  | none :: fix, m :: ml, 0, hl, h, hf => by simp [fillIn, rank]
  | none :: fix, m :: ml, v + 1, hl, h, hf => by
    have := fillIn_free fix ml v (by simpa [rank, freeSel] using hl) (by simpa using h) (by simpa [isFree, fx] using hf)
    simpa [fillIn, rank, freeSel] using this

theorem fillIn_respects : ∀ (fix : List (Option Nat)) (ml : List Nat), ml.length = rank (freeSel fix) fix.length → Respects fix (fillIn fix ml)
  | [], ml, _ => by intro v l h; simp at h
  | some l :: fix, ml, hl => by
    have ih := fillIn_respects fix ml (by simpa [rank, freeSel] using hl)
    intro v l' h
    cases v with
    | zero => simpa [fillIn] using h
    | succ v => simpa [fillIn] using ih v l' (by simpa using h)
  | none :: fix, [], hl => by simp [rank, freeSel] at hl
  | none :: fix, m :: ml, hl => by
    have ih := fillIn_respects fix ml (by simpa [rank, freeSel] using hl)
    intro v l' h
    cases v with
    | zero => simp at h
    | succ v => simpa [fillIn] using ih v l' (by simpa using h)

theorem fillIn_length : ∀ (fix : List (Option Nat)) (ml : List Nat), ml.length = rank (freeSel fix) fix.length → (fillIn fix ml).length = fix.length
  | [], ml, _ => rfl
  | some l :: fix, ml, hl => by simp [fillIn, fillIn_length fix ml (by simpa [rank, freeSel] using hl)]
  | none :: fix, [], hl => by simp [rank, freeSel] at hl
  | none :: fix, m :: ml, hl => by simp [fillIn, fillIn_length fix ml (by simpa [rank, freeSel] using hl)]

/-- Fixed labels are in range. -/
def FixInRange (numLabels : List Nat) (fix : List (Option Nat)) : Prop :=
  ∀ v l n : Nat, fix[v]? = some (some l) → numLabels[v]? = some n → l < n

/-- A labeling of the free variables gives a labeling of all variables. -/
theorem fillIn_labeling {p : Problem V} {fix : List (Option Nat)} (hl : fix.length = p.numLabels.length) (hr : FixInRange p.numLabels fix)
    {ml : List Nat} (hm : (⟨freeLabels fix p.numLabels, ([] : List (Term V))⟩ : Problem V).Labeling ml) : p.Labeling (fillIn fix ml) := by
  have hlen : ml.length = rank (freeSel fix) fix.length := by
    have := hm.1
    simp only at this
    rw [this, freeLabels_eq, length_pick _ _ (by simp [freeSel, hl])]
    simp [freeSel]
  refine ⟨by rw [fillIn_length _ _ hlen, hl], ?_⟩
  intro v l n h1 h2
  have hv : v < fix.length := by rw [hl]; exact (List.getElem?_eq_some_iff.mp h2).1
  cases hf : fx fix v with
  | some l' =>
    have h3 := fillIn_respects fix ml hlen v l' (fx_some hf)
    rw [h1] at h3
    simp only [Option.some.injEq] at h3
    subst h3
    exact hr v l n (fx_some hf) h2
  | none =>
    have hfree : isFree fix v = true := by simp [isFree, hf]
    rw [fillIn_free fix ml v hlen hv hfree] at h1
    have h3 := pick_rank (freeSel fix) p.numLabels v ((freeSel_iff fix v).mpr ⟨hv, hfree⟩)
    rw [h2, ← freeLabels_eq] at h3
    exact hm.2 _ l n h1 h3

/-! ### The loops -/

theorem originalLoop_spec {fv : List Bool} {fl : List Nat} {fix : List (Option Nat)} (he : Encodes fv fl fix) (ml : List Nat)
    (hl : ml.length = rank (freeSel fix) fix.length) : ∀ (k var c : Nat), var + k = fix.length → c = rank (freeSel fix) var →
    originalLoop fv fl ml var k c = some ((fillIn fix ml).drop var) := by
  intro k
  induction k with
  | zero =>
    intro var c hv hc
    rw [List.drop_eq_nil_of_le (by rw [fillIn_length _ _ hl]; omega)]
    rfl
  | succ k ih =>
    intro var c hv hc
    have hlt : var < fix.length := by omega
    have hd : (fillIn fix ml).drop var = (fillIn fix ml)[var]'(by rw [fillIn_length _ _ hl]; exact hlt) :: (fillIn fix ml).drop (var + 1) :=
      List.drop_eq_getElem_cons _
    have hget : (fillIn fix ml)[var]? = some ((fillIn fix ml)[var]'(by rw [fillIn_length _ _ hl]; exact hlt)) := List.getElem?_eq_getElem _
    rw [hd]
    generalize (fillIn fix ml)[var]'(by rw [fillIn_length _ _ hl]; exact hlt) = a at *
    unfold originalLoop
    cases hf : fx fix var with
    | some l =>
      obtain ⟨h1, h2⟩ := he.fixed var l (fx_some hf)
      have h3 := fillIn_respects fix ml hl var l (fx_some hf)
      rw [hget] at h3
      simp only [Option.some.injEq] at h3
      have hr := rank_succ (sel := freeSel fix) (v := var) (b := false) (by simp [freeSel, fx_some hf])
      rw [h1]
      simp only [h2]
      rw [ih (var + 1) c (by omega) (by rw [hr]; simpa using hc), h3]
      rfl
    | none =>
      have h1 := he.free var (fx_none hlt hf)
      have hfree : isFree fix var = true := by simp [isFree, hf]
      have h3 := fillIn_free fix ml var hl hlt hfree
      have hr := rank_succ ((freeSel_iff fix var).mpr ⟨hlt, hfree⟩)
      rw [hget, ← hc] at h3
      rw [h1]
      simp only [← h3]
      rw [ih (var + 1) (c + 1) (by omega) (by rw [hr, hc]; simp)]
      rfl

theorem varMapLoop_spec {fv : List Bool} {fl : List Nat} {fix : List (Option Nat)} (he : Encodes fv fl fix) :
    ∀ (k var count : Nat) (varMap : List Nat), var + k = fix.length → count = rank (freeSel fix) var → varMap.length = fix.length →
    (∀ v, v < var → isFree fix v = true → varMap[v]? = some (rank (freeSel fix) v)) →
    ∃ varMap', varMapLoop fv var k count varMap = some (rank (freeSel fix) fix.length, varMap') ∧
      ∀ v, v < fix.length → isFree fix v = true → varMap'[v]? = some (rank (freeSel fix) v) := by
  intro k
  induction k with
  | zero =>
    intro var count varMap hv hc hl h
    have : var = fix.length := by omega
    subst this
    exact ⟨varMap, by rw [hc]; rfl, h⟩
  | succ k ih =>
    intro var count varMap hv hc hl h
    have hlt : var < fix.length := by omega
    unfold varMapLoop
    cases hf : fx fix var with
    | some l =>
      obtain ⟨h1, h2⟩ := he.fixed var l (fx_some hf)
      have hr := rank_succ (sel := freeSel fix) (v := var) (b := false) (by simp [freeSel, fx_some hf])
      rw [h1]
      simp only
      apply ih (var + 1) count varMap (by omega) (by rw [hr]; simpa using hc) hl
      intro v hv' hfree
      by_cases hvv : v = var
      · subst hvv; simp [isFree, hf] at hfree
      · exact h v (by omega) hfree
    | none =>
      have h1 := he.free var (fx_none hlt hf)
      have hfree : isFree fix var = true := by simp [isFree, hf]
      have hr := rank_succ ((freeSel_iff fix var).mpr ⟨hlt, hfree⟩)
      rw [h1]
      simp only
      rw [setAt_of_lt _ (by omega)]
      simp only
      apply ih (var + 1) (count + 1) _ (by omega) (by rw [hr, hc]; simp) (by simpa using hl)
      intro v hv' hfree'
      by_cases hvv : v = var
      · subst hvv
        rw [List.getElem?_set_self (by omega), hc]
      · rw [List.getElem?_set_ne (Ne.symm hvv)]
        exact h v (by omega) hfree'

theorem shapeLoop_spec {gm : GM V} {fv : List Bool} {fl varMap : List Nat} {fix : List (Option Nat)} (he : Encodes fv fl fix)
    (hlen : fix.length = gm.numLabels.length)
    (hvm : ∀ v, v < fix.length → isFree fix v = true → varMap[v]? = some (rank (freeSel fix) v)) :
    ∀ (k var : Nat) (shape : List Nat), var + k = fix.length →
    shape = pick ((freeSel fix).take var) (gm.numLabels.take var) ++ List.replicate (rank (freeSel fix) fix.length - rank (freeSel fix) var) 0 →
    shapeLoop gm fv varMap var k shape = some (freeLabels fix gm.numLabels) := by
  intro k
  induction k with
  | zero =>
    intro var shape hv hs
    have : var = fix.length := by omega
    subst this
    unfold shapeLoop
    rw [hs, freeLabels_eq, Nat.sub_self, List.take_of_length_le (by simp [freeSel]), List.take_of_length_le (by omega)]
    simp
  | succ k ih =>
    intro var shape hv hs
    have hlt : var < fix.length := by omega
    have hltn : var < gm.numLabels.length := by omega
    have hlab := List.getElem?_eq_getElem hltn
    have hpl := length_pick_take (sel := freeSel fix) (xs := gm.numLabels) (by simp [freeSel, hlen]) var (by simp [freeSel]; omega)
    unfold shapeLoop
    cases hf : fx fix var with
    | some l =>
      obtain ⟨h1, h2⟩ := he.fixed var l (fx_some hf)
      have hsel : (freeSel fix)[var]? = some false := by simp [freeSel, fx_some hf]
      rw [h1]
      simp only
      apply ih (var + 1) shape (by omega)
      rw [hs, pick_take_succ hsel hlab, rank_succ hsel]
      simp
    | none =>
      have h1 := he.free var (fx_none hlt hf)
      have hfree : isFree fix var = true := by simp [isFree, hf]
      have hsel := (freeSel_iff fix var).mpr ⟨hlt, hfree⟩
      have hrk := rank_lt hsel (show var < fix.length by omega)
      rw [h1]
      simp only [hvm var hlt hfree, hlab]
      obtain ⟨m, hm⟩ : ∃ m, rank (freeSel fix) fix.length - rank (freeSel fix) var = m + 1 := ⟨_, (Nat.succ_pred_eq_of_pos (by omega)).symm⟩
      rw [hm, List.replicate_succ] at hs
      rw [setAt_of_lt _ (by rw [hs]; simp [hpl])]
      simp only
      apply ih (var + 1) _ (by omega)
      rw [hs, List.set_append_right _ _ (by omega), hpl, Nat.sub_self, List.set_cons_zero, pick_take_succ hsel hlab, rank_succ hsel]
      simp only [if_true, List.append_assoc, List.singleton_append]
      congr 3
      omega

/-! ### The loop over the factors -/

theorem liftOp_foldl (o : Operation V) : ∀ (l : List V) (a : V), (l.map some).foldl (liftOp o).op (some a) = some (l.foldl o.op a)
  | [], a => rfl
  | x :: l, a => by
    simp only [List.map_cons, List.foldl_cons]
    exact liftOp_foldl o l (o.op a x)

/-- Corresponding labelings of the modified and the original model. -/
structure Pair (p : Problem V) (fix : List (Option Nat)) (r : Nat → Nat) (conf x : List Nat) : Prop where
  labeling : p.Labeling x
  respects : Respects fix x
  free : ∀ v, v < fix.length → isFree fix v = true → conf[r v]? = x[v]?

theorem Mirrors.value {p : Problem V} {fix : List (Option Nat)} {r : Nat → Nat} {t : Term V} {u : Term (Option V)}
    (h : Mirrors p fix r t u) (hr : ∀ v ∈ t.vars, v < fix.length) {conf x : List Nat} (hp : Pair p fix r conf x) :
    u.value conf = some (t.value x) :=
  h.2 conf x hp.labeling hp.respects (fun v hv hf => hp.free v (hr v hv) hf)

/-- The members of the manipulator describe the fixing of the variables of a model that represents `p`. -/
structure Describes (m : Manip V) (p : Problem V) (fix : List (Option Nat)) : Prop where
  rep : Represents m.gm p
  enc : Encodes m.fixVariable m.fixVariableLabel fix
  len : fix.length = p.numLabels.length
  range : FixInRange p.numLabels fix
  v2s : m.var2subProblem.length = fix.length
  pos : ∀ n ∈ p.numLabels, 0 < n

/-- There is a labeling with the fixed labels. -/
theorem Describes.labeling {m : Manip V} {p : Problem V} {fix : List (Option Nat)} (h : Describes m p fix) :
    ∃ x, p.Labeling x ∧ Respects fix x := by
  have hlen : (List.replicate (rank (freeSel fix) fix.length) 0).length = rank (freeSel fix) fix.length := by simp
  refine ⟨fillIn fix (List.replicate (rank (freeSel fix) fix.length) 0), fillIn_labeling h.len h.range ⟨?_, ?_⟩, fillIn_respects _ _ hlen⟩
  · simp only [List.length_replicate]
    rw [freeLabels_eq, length_pick _ _ (by simp [freeSel, h.len])]
    simp [freeSel]
  · intro v l n h1 h2
    simp only [List.getElem?_replicate] at h1
    split at h1
    · simp only [Option.some.injEq] at h1
      subst h1
      simp only at h2
      rw [freeLabels_eq] at h2
      obtain ⟨w, _, hw, _⟩ := pick_mem _ _ _ _ h2
      exact h.pos n (List.mem_of_getElem? hw)
    · simp at h1

theorem filter_none {fix : List (Option Nat)} {vs : List Nat} (h : ¬ (fixPairs fix 0 vs).length = 0)
    (h2 : (fixPairs fix 0 vs).length = vs.length) : (∀ v ∈ vs, isFree fix v = false) ∧ vs ≠ [] := by
  have := length_fixPairs fix vs 0
  have hnil : vs.filter (isFree fix) = [] := List.length_eq_zero_iff.mp (by omega)
  refine ⟨?_, ?_⟩
  · intro v hv
    have := List.filter_eq_nil_iff.mp hnil v hv
    simpa using this
  · rintro rfl
    simp [fixPairs] at h

theorem filter_all {fix : List (Option Nat)} {vs : List Nat} (h : (fixPairs fix 0 vs).length = 0) : ∀ v ∈ vs, isFree fix v = true := by
  have := length_fixPairs fix vs 0
  have hall : (vs.filter (isFree fix)).length = vs.length := by omega
  exact List.filter_eq_self.mp (List.filter_sublist.eq_of_length hall)

theorem tentacle_step {tf : List Bool} {fi k : Nat} (h : tf = List.replicate k false) (hlt : fi < k) : tf[fi]? = some false := by
  rw [h, List.getElem?_replicate, if_pos hlt]

/-- The loop over the factors, mode FIX. -/
theorem buildLoop_fix {o : Operation V} (ho : o.IsCommMonoid) {m : Manip V} {p : Problem V} {fix : List (Option Nat)} (hd : Describes m p fix)
    (hmode : m.mode = .fix) (hten : m.tentacleFactor = List.replicate m.gm.factors.length false) {varMap : List Nat} {r : Nat → Nat} {sh : List Nat}
    (hvm : ∀ v, v < fix.length → isFree fix v = true → varMap[v]? = some (r v)) (hpl : Placed p.numLabels fix r sh (List.range fix.length)) :
    ∀ (fs : List FactorRec) (ts : List (Term V)), List.Forall₂ (FactorMatches m.gm) fs ts → ∀ (fi : Nat), fi + fs.length = m.gm.factors.length →
    ∀ (g : GM (Option V)) (q : List (Term (Option V))) (c : V), Represents g ⟨sh, q⟩ → g.functions.length = nTypes →
    ∃ g' us c', buildLoop o m varMap fs fi g c = some (g', c') ∧ Represents g' ⟨sh, q ++ us⟩ ∧ g'.functions.length = nTypes ∧
      ∀ conf x, Pair p fix r conf x → ∀ a, ∃ b, (us.map (fun u => u.value conf)).foldl (liftOp o).op (some a) = some b ∧
        o.op b c' = (ts.map (fun t => t.value x)).foldl o.op (o.op a c) := by
  intro fs ts hfm
  induction hfm with
  | nil =>
    intro fi hfi g q c hg hgt
    exact ⟨g, [], c, rfl, by simpa using hg, hgt, fun conf x _ a => ⟨a, rfl, rfl⟩⟩
  | @cons f t fs ts hm _ ih =>
    intro fi hfi g q c hg hgt
    simp only [List.length_cons] at hfi
    have hlabels := hd.rep.labels
    have hfixlen : fix.length = m.gm.numLabels.length := by rw [hlabels, hd.len]
    have hrange : ∀ v ∈ t.vars, v < fix.length := by intro v hv; rw [hfixlen]; exact hm.range v hv
    have hsplit := splitLoop_spec hm hd.enc hfixlen (varMap := varMap) (v2s := m.var2subProblem) r (fun v => m.var2subProblem.getD v 0)
      (by
        intro v hv hf
        refine ⟨hvm v (hrange v hv) hf, ?_⟩
        have : v < m.var2subProblem.length := by rw [hd.v2s]; exact hrange v hv
        rw [List.getElem?_eq_getElem this]
        simp [this]) f.visSize 0 [] [] 0 (by omega)
    simp only [List.nil_append, List.drop_zero] at hsplit
    have hgl : g.numLabels = sh := hg.labels
    have hplt : Placed m.gm.numLabels fix r g.numLabels t.vars := by
      rw [hlabels, hgl]
      exact ⟨fun v hv => hpl.labels v (List.mem_range.mpr (hrange v hv)),
        fun v hv w hw => hpl.mono v (List.mem_range.mpr (hrange v hv)) w (List.mem_range.mpr (hrange w hw))⟩
    unfold buildLoop
    rw [tentacle_step hten (by omega)]
    simp only [hsplit, hmode]
    have cont : ∀ (g' : GM (Option V)) (u : Term (Option V)), Represents g' ⟨sh, q ++ [u]⟩ → g'.functions.length = nTypes → Mirrors p fix r t u →
        ∃ g'' us c', buildLoop o m varMap fs (fi + 1) g' c = some (g'', c') ∧ Represents g'' ⟨sh, q ++ us⟩ ∧ g''.functions.length = nTypes ∧
          ∀ conf x, Pair p fix r conf x → ∀ a, ∃ b, (us.map (fun u => u.value conf)).foldl (liftOp o).op (some a) = some b ∧
            o.op b c' = ((t :: ts).map (fun t => t.value x)).foldl o.op (o.op a c) := by
      intro g' u h1 h2 h3
      obtain ⟨g'', us, c', e1, e2, e3, e4⟩ := ih (fi + 1) (by omega) g' (q ++ [u]) c h1 h2
      refine ⟨g'', u :: us, c', e1, by simpa using e2, e3, ?_⟩
      intro conf x hp a
      obtain ⟨b, e5, e6⟩ := e4 conf x hp (o.op a (t.value x))
      refine ⟨b, ?_, ?_⟩
      · simp only [List.map_cons, List.foldl_cons, h3.value hrange hp]
        exact e5
      · rw [e6]
        simp only [List.map_cons, List.foldl_cons]
        congr 1
        rw [ho.assoc, ho.assoc, ho.comm (t.value x) c]
    split
    · rename_i h0
      obtain ⟨g', u, h1, h2, h3, h4⟩ := addTerm_view hd.rep hm hg (by rw [hgt]; decide) hplt (filter_all h0)
      rw [h1]
      exact cont g' u h2 (by rw [h3, hgt]) h4
    · rename_i h0
      split
      · rename_i h1
        rw [hm.visSize] at h1
        obtain ⟨hall, hne⟩ := filter_none h0 h1
        obtain ⟨x0, hx0, hx0r⟩ := hd.labeling
        have hac : ∀ x, p.Labeling x → Respects fix x → addConstant o m.gm f m.fixVariableLabel c = some (o.op c (t.value x)) := by
          intro x hx hxr
          exact addConstant_spec o hm hd.enc hfixlen x hxr (by rw [hlabels]; exact hx.1) (by rw [hlabels]; exact hx.2) hall hne c
        rw [hac x0 hx0 hx0r]
        simp only
        obtain ⟨g'', us, c', e1, e2, e3, e4⟩ := ih (fi + 1) (by omega) g q (o.op c (t.value x0)) hg hgt
        refine ⟨g'', us, c', e1, e2, e3, ?_⟩
        intro conf x hp a
        obtain ⟨b, e5, e6⟩ := e4 conf x hp a
        refine ⟨b, e5, ?_⟩
        have : o.op c (t.value x0) = o.op c (t.value x) := by
          have h1 := hac x0 hx0 hx0r
          rw [hac x hp.labeling hp.respects] at h1
          simpa using h1.symm
        rw [e6, this]
        simp only [List.map_cons, List.foldl_cons, ho.assoc]
      · rename_i h1
        have hne : t.vars ≠ [] := by
          intro h
          rw [h] at h0
          simp [fixPairs] at h0
        obtain ⟨g', u, h1, h2, h3, h4⟩ := addTerm_viewFix hd.rep hm hfixlen hg (by rw [hgt]; decide) hplt hne
        rw [h1]
        exact cont g' u h2 (by rw [h3, hgt]) h4

/-- The loop over the factors, mode DROP. -/
theorem buildLoop_drop {o : Operation V} {m : Manip V} {p : Problem V} {fix : List (Option Nat)} (hd : Describes m p fix)
    (hmode : m.mode = .drop) (hten : m.tentacleFactor = List.replicate m.gm.factors.length false) {varMap : List Nat} {r : Nat → Nat} {sh : List Nat}
    (hvm : ∀ v, v < fix.length → isFree fix v = true → varMap[v]? = some (r v)) (hpl : Placed p.numLabels fix r sh (List.range fix.length)) :
    ∀ (fs : List FactorRec) (ts : List (Term V)), List.Forall₂ (FactorMatches m.gm) fs ts → ∀ (fi : Nat), fi + fs.length = m.gm.factors.length →
    ∀ (g : GM (Option V)) (q : List (Term (Option V))) (c : V), Represents g ⟨sh, q⟩ → g.functions.length = nTypes →
    ∃ g' us c', buildLoop o m varMap fs fi g c = some (g', c') ∧ Represents g' ⟨sh, q ++ us⟩ ∧ g'.functions.length = nTypes ∧
      ∀ conf x, Pair p fix r conf x → us.map (fun u => u.value conf) =
        ((ts.filter (fun t => t.vars.all (fun v => fix[v]? == some none))).map (fun t => t.value x)).map some := by
  intro fs ts hfm
  induction hfm with
  | nil =>
    intro fi hfi g q c hg hgt
    exact ⟨g, [], c, rfl, by simpa using hg, hgt, fun conf x _ => rfl⟩
  | @cons f t fs ts hm _ ih =>
    intro fi hfi g q c hg hgt
    simp only [List.length_cons] at hfi
    have hlabels := hd.rep.labels
    have hfixlen : fix.length = m.gm.numLabels.length := by rw [hlabels, hd.len]
    have hrange : ∀ v ∈ t.vars, v < fix.length := by intro v hv; rw [hfixlen]; exact hm.range v hv
    have hsplit := splitLoop_spec hm hd.enc hfixlen (varMap := varMap) (v2s := m.var2subProblem) r (fun v => m.var2subProblem.getD v 0)
      (by
        intro v hv hf
        refine ⟨hvm v (hrange v hv) hf, ?_⟩
        have : v < m.var2subProblem.length := by rw [hd.v2s]; exact hrange v hv
        rw [List.getElem?_eq_getElem this]
        simp [this]) f.visSize 0 [] [] 0 (by omega)
    simp only [List.nil_append, List.drop_zero] at hsplit
    have hgl : g.numLabels = sh := hg.labels
    have hplt : Placed m.gm.numLabels fix r g.numLabels t.vars := by
      rw [hlabels, hgl]
      exact ⟨fun v hv => hpl.labels v (List.mem_range.mpr (hrange v hv)),
        fun v hv w hw => hpl.mono v (List.mem_range.mpr (hrange v hv)) w (List.mem_range.mpr (hrange w hw))⟩
    unfold buildLoop
    rw [tentacle_step hten (by omega)]
    simp only [hsplit, hmode]
    have hcond : (t.vars.all (fun v => fix[v]? == some none)) = true ↔ ∀ v ∈ t.vars, isFree fix v = true := by
      rw [List.all_eq_true]
      constructor
      · intro h v hv
        have := h v hv
        simp only [beq_iff_eq] at this
        simp [isFree, fx, this]
      · intro h v hv
        have h1 := h v hv
        simp only [isFree, Option.isNone_iff_eq_none] at h1
        simp [fx_none (hrange v hv) h1]
    split
    · rename_i h0
      obtain ⟨g', u, h1, h2, h3, h4⟩ := addTerm_view hd.rep hm hg (by rw [hgt]; decide) hplt (filter_all h0)
      rw [h1]
      obtain ⟨g'', us, c', e1, e2, e3, e4⟩ := ih (fi + 1) (by omega) g' (q ++ [u]) c h2 (by rw [h3, hgt])
      refine ⟨g'', u :: us, c', e1, by simpa using e2, e3, ?_⟩
      intro conf x hp
      have hpos := hcond.mpr (filter_all h0)
      simp only [List.filter_cons, hpos, if_true, List.map_cons, h4.value hrange hp, e4 conf x hp]
    · rename_i h0
      obtain ⟨g'', us, c', e1, e2, e3, e4⟩ := ih (fi + 1) (by omega) g q c hg hgt
      refine ⟨g'', us, c', e1, e2, e3, ?_⟩
      intro conf x hp
      have hneg : ¬ (t.vars.all (fun v => fix[v]? == some none)) = true := by
        rw [hcond]
        intro hall
        have := length_fixPairs fix t.vars 0
        rw [List.filter_eq_self.mpr hall] at this
        omega
      rw [e4 conf x hp, List.filter_cons, if_neg hneg]

end Manipulator
end OpenGM
