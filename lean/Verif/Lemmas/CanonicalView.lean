import Verif.Model.CanonicalView
import Verif.Spec.CanonicalView
import Verif.Lemmas.ExplicitModel
import Verif.Lemmas.ManipulatorModel
import Verif.Lemmas.ManipulatorBuild
import Verif.Lemmas.EnergySum
import Mathlib.Data.List.Lex
/-
The canonical view stores the canonical form of the problem.
-/
namespace OpenGM
namespace CanonicalView
open Spec Manipulator
open ExplicitModel (FidMap strictWeak mapFind mapAssign Ordered strictWeak_of_ordered mapFind_none mapFind_some)
variable {V : Type}

/-! ### the order of the keys -/

theorem lexLt_iff : ∀ a b : List Nat, lexLt a b = true ↔ List.Lex (· < ·) a b
  | a, [] => by cases a <;> simp [lexLt]
  | [], b :: t => by simp [lexLt]
  | a :: s, b :: t => by
    have key : List.Lex (· < ·) (a :: s) (b :: t) ↔ a < b ∨ a = b ∧ List.Lex (· < ·) s t := by
      constructor
      · intro h
        cases h with
        | rel h => exact .inl h
        | cons h => exact .inr ⟨rfl, h⟩
      · rintro (h | ⟨rfl, h⟩)
        · exact .rel h
        · exact .cons h
    rw [lexLt, key]
    by_cases h1 : a < b
    · simp [h1]
    · by_cases h2 : b < a
      · simp [h1, h2]; omega
      · have : a = b := by omega
        subst this
        simp [lexLt_iff s t]

theorem lex_trans {a b c : List Nat} (h1 : List.Lex (· < ·) a b) (h2 : List.Lex (· < ·) b c) : List.Lex (· < ·) a c :=
  (show a < b from h1).trans (show b < c from h2)

theorem lex_eq {a b : List Nat} (h1 : ¬ List.Lex (· < ·) a b) (h2 : ¬ List.Lex (· < ·) b a) : a = b := by
  rcases lt_trichotomy a b with h | h | h
  · exact absurd h h1
  · exact h
  · exact absurd h h2

/-- The terms on the variables `vs`. -/
def on (ts : List (Term V)) (vs : List Nat) : List (Term V) := ts.filter (fun t => t.vars = vs)

theorem on_snoc_eq (ts : List (Term V)) (t : Term V) : on (ts ++ [t]) t.vars = on ts t.vars ++ [t] := by simp [on]

theorem on_snoc_ne (ts : List (Term V)) (t : Term V) {vs : List Nat} (h : t.vars ≠ vs) : on (ts ++ [t]) vs = on ts vs := by simp [on, h]

/-- The state of the map after the terms `done`. -/
structure MapInv (gm : GM V) (done : List (Term V)) (m : FactorMap) : Prop where
  sorted : (m.map Prod.fst).Pairwise (fun a b => List.Lex (· < ·) a b)
  groups : ∀ e ∈ m, e.2 ≠ [] ∧ List.Forall₂ (FactorMatches gm) e.2 (on done e.1)
  keys : ∀ vs, vs ∈ m.map Prod.fst ↔ vs.length ≠ 1 ∧ ∃ t ∈ done, t.vars = vs

theorem mapPush_keys (k : List Nat) (f : FactorRec) : ∀ (m : FactorMap) (vs : List Nat), vs ∈ (mapPush k f m).map Prod.fst ↔ vs = k ∨ vs ∈ m.map Prod.fst
  | [], vs => by simp [mapPush]
  | (k', fs) :: rest, vs => by
    rw [mapPush]
    by_cases h1 : lexLt k' k = true
    · rw [if_pos h1, List.map_cons, List.mem_cons, mapPush_keys k f rest vs, List.map_cons, List.mem_cons]
      tauto
    · rw [if_neg h1]
      by_cases h2 : lexLt k k' = true
      · rw [if_pos h2]; simp
      · rw [if_neg h2]
        have := lex_eq (fun h => h1 ((lexLt_iff _ _).mpr h)) (fun h => h2 ((lexLt_iff _ _).mpr h))
        subst this
        simp

theorem mapPush_sorted (k : List Nat) (f : FactorRec) : ∀ (m : FactorMap), (m.map Prod.fst).Pairwise (fun a b => List.Lex (· < ·) a b) →
    ((mapPush k f m).map Prod.fst).Pairwise (fun a b => List.Lex (· < ·) a b)
  | [], _ => by simp [mapPush]
  | (k', fs) :: rest, h => by
    rw [List.map_cons, List.pairwise_cons] at h
    rw [mapPush]
    by_cases h1 : lexLt k' k = true
    · rw [if_pos h1, List.map_cons, List.pairwise_cons]
      refine ⟨?_, mapPush_sorted k f rest h.2⟩
      intro x hx
      rcases (mapPush_keys k f rest x).mp hx with rfl | hx
      · exact (lexLt_iff _ _).mp h1
      · exact h.1 x hx
    · rw [if_neg h1]
      by_cases h2 : lexLt k k' = true
      · rw [if_pos h2, List.map_cons, List.map_cons, List.pairwise_cons, List.pairwise_cons]
        refine ⟨?_, h⟩
        have hk := (lexLt_iff _ _).mp h2
        intro x hx
        rcases List.mem_cons.mp hx with rfl | hx
        · exact hk
        · exact lex_trans hk (h.1 x hx)
      · rw [if_neg h2, List.map_cons, List.pairwise_cons]
        exact h

theorem lex_irrefl (a : List Nat) : ¬ List.Lex (· < ·) a a := lt_irrefl a

/-- The entries after an insertion. -/
theorem mapPush_mem (k : List Nat) (f : FactorRec) : ∀ (m : FactorMap), (m.map Prod.fst).Pairwise (fun a b => List.Lex (· < ·) a b) →
    ∀ e ∈ mapPush k f m, (e ∈ m ∧ e.1 ≠ k) ∨ (e = (k, [f]) ∧ k ∉ m.map Prod.fst) ∨ ∃ fs, (k, fs) ∈ m ∧ e = (k, fs ++ [f])
  | [], _, e, he => by simp [mapPush] at he; right; left; simp [he]
  | (k', fs) :: rest, h, e, he => by
    rw [List.map_cons, List.pairwise_cons] at h
    rw [mapPush] at he
    by_cases h1 : lexLt k' k = true
    · have hl := (lexLt_iff _ _).mp h1
      have hne : k' ≠ k := by rintro rfl; exact lex_irrefl _ hl
      rw [if_pos h1] at he
      rcases List.mem_cons.mp he with rfl | he
      · left; exact ⟨by simp, hne⟩
      · rcases mapPush_mem k f rest h.2 e he with ⟨h3, h4⟩ | ⟨h3, h4⟩ | ⟨gs, h3, h4⟩
        · left; exact ⟨by simp [h3], h4⟩
        · right; left
          refine ⟨h3, ?_⟩
          rw [List.map_cons, List.mem_cons]
          rintro (h5 | h5)
          · exact hne h5.symm
          · exact h4 h5
        · right; right; exact ⟨gs, by simp [h3], h4⟩
    · rw [if_neg h1] at he
      by_cases h2 : lexLt k k' = true
      · have hl := (lexLt_iff _ _).mp h2
        rw [if_pos h2] at he
        have hnot : k ∉ ((k', fs) :: rest).map Prod.fst := by
          rw [List.map_cons, List.mem_cons]
          rintro (h5 | h5)
          · simp only at h5
            rw [← h5] at hl
            exact lex_irrefl _ hl
          · exact lex_irrefl _ (lex_trans hl (h.1 _ h5))
        rcases List.mem_cons.mp he with rfl | he
        · right; left; exact ⟨rfl, hnot⟩
        · left
          refine ⟨he, ?_⟩
          intro hc
          exact hnot (hc ▸ List.mem_map_of_mem he)
      · rw [if_neg h2] at he
        have hk := lex_eq (fun h => h1 ((lexLt_iff _ _).mpr h)) (fun h => h2 ((lexLt_iff _ _).mpr h))
        subst hk
        rcases List.mem_cons.mp he with rfl | he
        · right; right; exact ⟨fs, by simp, rfl⟩
        · left
          refine ⟨by simp [he], ?_⟩
          intro hc
          have := h.1 _ (List.mem_map_of_mem he)
          rw [hc] at this
          exact lex_irrefl _ this

theorem mapPush_inv {gm : GM V} {done : List (Term V)} {m : FactorMap} (h : MapInv gm done m) {f : FactorRec} {t : Term V} (hm : FactorMatches gm f t)
    (hl : t.vars.length ≠ 1) : MapInv gm (done ++ [t]) (mapPush t.vars f m) := by
  refine ⟨mapPush_sorted _ _ _ h.sorted, ?_, ?_⟩
  · intro e he
    rcases mapPush_mem t.vars f m h.sorted e he with ⟨h1, h2⟩ | ⟨rfl, h2⟩ | ⟨fs, h1, rfl⟩
    · rw [on_snoc_ne _ _ (fun hc => h2 hc.symm)]
      exact h.groups e h1
    · refine ⟨by simp, ?_⟩
      simp only
      rw [on_snoc_eq]
      have : on done t.vars = [] := by
        rw [on, List.filter_eq_nil_iff]
        intro s hs hc
        exact h2 ((h.keys _).mpr ⟨hl, s, hs, by simpa using hc⟩)
      rw [this]
      exact .cons hm .nil
    · refine ⟨by simp, ?_⟩
      simp only
      rw [on_snoc_eq]
      exact List.rel_append (h.groups _ h1).2 (.cons hm .nil)
  · intro vs
    rw [mapPush_keys, h.keys]
    constructor
    · rintro (rfl | ⟨h1, s, h2, h3⟩)
      · exact ⟨hl, t, by simp, rfl⟩
      · exact ⟨h1, s, by simp [h2], h3⟩
    · rintro ⟨h1, s, h2, h3⟩
      rcases List.mem_append.mp h2 with h2 | h2
      · right; exact ⟨h1, s, h2, h3⟩
      · rw [List.mem_singleton] at h2
        subst h2
        left; exact h3.symm

/-- The state of the unary lists after the terms `done`. -/
structure UnaryInv (gm : GM V) (done : List (Term V)) (u : List (List FactorRec)) : Prop where
  len : u.length = gm.numLabels.length
  groups : ∀ (v : Nat) (us : List FactorRec), u[v]? = some us → List.Forall₂ (FactorMatches gm) us (on done [v])

theorem groupLoop_spec {gm : GM V} : ∀ (fs : List FactorRec) (ts done : List (Term V)) (u : List (List FactorRec)) (m : FactorMap),
    List.Forall₂ (FactorMatches gm) fs ts → UnaryInv gm done u → MapInv gm done m →
    ∃ u' m', groupLoop gm fs u m = some (u', m') ∧ UnaryInv gm (done ++ ts) u' ∧ MapInv gm (done ++ ts) m'
  | [], _, done, u, m, .nil, hu, hm => ⟨u, m, rfl, by simpa using hu, by simpa using hm⟩
  | f :: fs, _, done, u, m, .cons (b := t) (l₂ := ts) hf hfs, hu, hm => by
    have key : done ++ t :: ts = (done ++ [t]) ++ ts := by simp
    rw [groupLoop, key]
    by_cases h1 : f.visSize = 1
    · rw [if_pos h1]
      have hl : t.vars.length = 1 := by rw [← hf.visSize, h1]
      obtain ⟨v, hv⟩ := List.length_eq_one_iff.mp hl
      have hat : gm.visAt f 0 = some v := by rw [hf.visAt 0 (by omega), hv]; rfl
      have hvl : v < u.length := by rw [hu.len]; exact hf.range v (by simp [hv])
      rw [hat]
      simp only
      rw [List.getElem?_eq_getElem hvl]
      simp only
      apply groupLoop_spec fs ts (done ++ [t]) _ m hfs
      · refine ⟨by simp [hu.len], ?_⟩
        intro w us hw
        rw [List.getElem?_set] at hw
        by_cases hvw : v = w
        · subst hvw
          rw [if_pos rfl, if_pos hvl] at hw
          cases hw
          rw [← hv, on_snoc_eq, hv]
          exact List.rel_append (hu.groups v _ (List.getElem?_eq_getElem hvl)) (.cons hf .nil)
        · rw [if_neg hvw] at hw
          rw [on_snoc_ne _ _ (by rw [hv]; simpa using hvw)]
          exact hu.groups w us hw
      · refine ⟨hm.sorted, ?_, ?_⟩
        · intro e he
          have := hm.groups e he
          have h3 := ((hm.keys e.1).mp (List.mem_map_of_mem he)).1
          rw [on_snoc_ne _ _ (by rintro hc; rw [hc] at hl; exact h3 hl)]
          exact this
        · intro vs
          rw [hm.keys]
          constructor
          · rintro ⟨h2, s, h3, h4⟩
            exact ⟨h2, s, by simp [h3], h4⟩
          · rintro ⟨h2, s, h3, h4⟩
            rcases List.mem_append.mp h3 with h3 | h3
            · exact ⟨h2, s, h3, h4⟩
            · rw [List.mem_singleton] at h3
              subst h3
              rw [h4] at hl
              exact absurd hl h2
    · rw [if_neg h1, hf.scope]
      have hl : t.vars.length ≠ 1 := by rw [← hf.visSize]; exact h1
      apply groupLoop_spec fs ts (done ++ [t]) u _ hfs
      · refine ⟨hu.len, ?_⟩
        intro w us hw
        rw [on_snoc_ne _ _ (by intro hc; rw [hc] at hl; simp at hl)]
        exact hu.groups w us hw
      · exact mapPush_inv hm hf hl

/-! ### the functions -/

/-- Positions of the merged type list. -/
structure Types.Ok (T : Types) (gm : GM V) : Prop where
  old : ∀ ty, ty < gm.functions.length → T.old ty < T.n
  const : T.const < T.n
  view : T.view < T.n

/-- The functions of a type that is followed by another used one: at most one. -/
def OrderedFns (gm : GM V) : Prop :=
  ∀ (i j : Nat) (fs gs : List (Fn V)), gm.functions[i]? = some fs → gm.functions[j]? = some gs → i < j → gs ≠ [] → fs.length ≤ 1

theorem orderedFns_ids {gm : GM V} (h : OrderedFns gm) (keys : List FunctionIdentifier) (hk : ∀ k ∈ keys, ∃ fn, gm.getFunction k = some fn) : Ordered keys := by
  intro a ha b hb hab
  obtain ⟨f1, h1⟩ := hk a ha
  obtain ⟨f2, h2⟩ := hk b hb
  simp only [GM.getFunction, Option.bind_eq_some_iff] at h1 h2
  obtain ⟨t1, a1, a2⟩ := h1
  obtain ⟨t2, b1, b2⟩ := h2
  have := h _ _ _ _ a1 b1 hab (by rintro rfl; simp at b2)
  have := (List.getElem?_eq_some_iff.mp a2).1
  omega

/-- The state of the construction: `q` is the part of the canonical view that exists. -/
structure Inv (T : Types) (gm : GM V) (cv : GM (Option V)) (m : FidMap) (q : Problem (Option V)) : Prop where
  rep : Represents cv q
  labels : cv.numLabels = gm.numLabels
  types : cv.functions.length = T.n
  nodup : (m.map Prod.fst).Nodup
  map : ∀ e ∈ m, ∃ fn, gm.getFunction e.1 = some fn ∧ cv.getFunction e.2 = some (wrap fn)

/-- A function for the factor on `vars` was added. -/
def Got (T : Types) (gm : GM V) (vars : List Nat) (table : List Nat → V) (q : Problem (Option V)) (r : Option (FunctionIdentifier × GM (Option V) × FidMap)) : Prop :=
  ∃ fid cv' m' fn, r = some (fid, cv', m') ∧ Inv T gm cv' m' q ∧ cv'.getFunction fid = some fn ∧ fn.shape = restrict gm.numLabels vars ∧
    ∀ c, InShape fn.shape c → fn.table c = some (table c)

theorem addFunction_got {T : Types} {gm : GM V} {cv : GM (Option V)} {m : FidMap} {q : Problem (Option V)} (h : Inv T gm cv m q) {ty : Nat} (hty : ty < T.n)
    (fn : Fn (Option V)) : ∃ fid cv', cv.addFunction ty fn = some (fid, cv') ∧ Inv T gm cv' m q ∧ cv'.getFunction fid = some fn := by
  have ht : cv.functions[ty]? = some (cv.functions[ty]'(by rw [h.types]; exact hty)) := List.getElem?_eq_getElem _
  refine ⟨_, _, by simp only [GM.addFunction]; rw [ht], ?_, getFunction_new _ _ _ _ ht⟩
  refine ⟨represents_functions h.rep ty _ fn ht, h.labels, by simp [h.types], h.nodup, ?_⟩
  intro e he
  obtain ⟨fn', h1, h2⟩ := h.map e he
  exact ⟨fn', h1, getFunction_set _ _ _ _ _ _ ht h2⟩

theorem inject_got {T : Types} {gm : GM V} (hT : T.Ok gm) (hord : OrderedFns gm) {cv : GM (Option V)} {m : FidMap} {q : Problem (Option V)} (h : Inv T gm cv m q)
    {f : FactorRec} {t : Term V} (hm : FactorMatches gm f t) : Got T gm t.vars t.table q (inject T gm cv m f) := by
  obtain ⟨fn, h1, h2, h3⟩ := hm.fn
  have hsw : strictWeak (⟨f.functionIndex, f.functionType⟩ :: m.map Prod.fst) = true := by
    apply strictWeak_of_ordered
    apply orderedFns_ids hord
    intro k hk
    rcases List.mem_cons.mp hk with rfl | hk
    · exact ⟨fn, h1⟩
    · obtain ⟨e, he, rfl⟩ := List.mem_map.mp hk
      obtain ⟨g, g1, _⟩ := h.map e he
      exact ⟨g, g1⟩
  unfold inject
  rw [if_pos hsw]
  by_cases hk : (⟨f.functionIndex, f.functionType⟩ : FunctionIdentifier) ∈ m.map Prod.fst
  · obtain ⟨⟨k, v⟩, he, hkv⟩ := List.mem_map.mp hk
    simp only at hkv
    subst hkv
    rw [mapFind_some h.nodup he]
    obtain ⟨g, g1, g2⟩ := h.map _ he
    simp only at g1 g2
    rw [h1] at g1
    cases g1
    exact ⟨v, cv, m, wrap fn, rfl, h, g2, h2, fun c hc => congrArg some (h3 c hc)⟩
  · have hnone := mapFind_none hk
    rw [hnone]
    simp only
    rw [h1]
    simp only
    have hty : f.functionType < gm.functions.length := by
      simp only [GM.getFunction, Option.bind_eq_some_iff] at h1
      obtain ⟨t1, a1, a2⟩ := h1
      exact (List.getElem?_eq_some_iff.mp a1).1
    obtain ⟨fid, cv', e1, e2, e3⟩ := addFunction_got h (hT.old _ hty) (wrap fn)
    rw [e1]
    simp only
    unfold mapAssign
    rw [if_pos hsw, hnone]
    refine ⟨fid, cv', m ++ [(⟨f.functionIndex, f.functionType⟩, fid)], wrap fn, rfl, ⟨e2.rep, e2.labels, e2.types, ?_, ?_⟩, e3, h2,
      fun c hc => congrArg some (h3 c hc)⟩
    · rw [List.map_append, List.nodup_append]
      refine ⟨h.nodup, by simp, ?_⟩
      intro a ha b hb
      simp at hb
      subst hb
      rintro rfl
      exact hk ha
    · intro e he
      rcases List.mem_append.mp he with he | he
      · exact e2.map e he
      · rw [List.mem_singleton] at he
        subst he
        exact ⟨fn, h1, e3⟩

theorem callFactor_append {gm : GM V} {f : FactorRec} {t : Term V} (hm : FactorMatches gm f t) {c : List Nat} (hc : InShape (restrict gm.numLabels t.vars) c) :
    gm.callFactor f (c ++ [0]) = some (t.table c) := by
  obtain ⟨fn, h1, h2, h3⟩ := hm.fn
  rw [← h2] at hc
  unfold GM.callFactor
  rw [h1]
  simp only
  unfold callFn
  cases hs : fn.shape with
  | nil =>
    rw [hs] at hc
    have : c = [] := List.length_eq_zero_iff.mp (by simpa using InShape_length _ _ hc)
    subst this
    simp only [List.nil_append]
    rw [h3 [] (by rw [hs]; exact hc)]
  | cons n s =>
    simp only [← hs]
    rw [inShape_of_InShape fn.shape c [0] hc, if_pos rfl, ← InShape_length _ _ hc, List.take_left', h3 c hc]
    rfl

theorem accumulate_spec (o : Operation V) {gm : GM V} {vars c : List Nat} (hc : InShape (restrict gm.numLabels vars) c) :
    ∀ (fs : List FactorRec) (ts : List (Term V)) (a : V), List.Forall₂ (FactorMatches gm) fs ts → (∀ t ∈ ts, t.vars = vars) →
    accumulate o gm c fs a = some ((ts.map (fun t => t.table c)).foldl o.op a)
  | [], _, a, .nil, _ => rfl
  | f :: fs, _, a, .cons (b := t) (l₂ := ts) hf hfs, hv => by
    rw [accumulate, callFactor_append hf (by rw [hv t (by simp)]; exact hc)]
    simp only
    rw [accumulate_spec o hc fs ts _ hfs (fun s hs => hv s (by simp [hs]))]
    rfl

theorem addView_got {T : Types} {gm : GM V} (hT : T.Ok gm) (o : Operation V) {cv : GM (Option V)} {m : FidMap} {q : Problem (Option V)} (h : Inv T gm cv m q)
    {f : FactorRec} {fs : List FactorRec} {ts : List (Term V)} {vars : List Nat} (hf : List.Forall₂ (FactorMatches gm) (f :: fs) ts) (hv : ∀ t ∈ ts, t.vars = vars) :
    Got T gm vars (fun c => (ts.map (fun t => t.table c)).foldl o.op o.neutral) q (addView T o gm cv m (f :: fs)) := by
  obtain ⟨t, hmt, ht⟩ : ∃ t, FactorMatches gm f t ∧ t ∈ ts := by
    cases hf with
    | cons h1 h2 => exact ⟨_, h1, by simp⟩
  have hs := factorShape_spec hmt f.visSize 0 (by omega)
  rw [List.drop_zero, hv t ht] at hs
  unfold addView
  rw [viewOf, hs]
  simp only [Option.map_some]
  obtain ⟨fid, cv', e1, e2, e3⟩ := addFunction_got h hT.view ⟨restrict gm.numLabels vars, fun labels => accumulate o gm labels (f :: fs) o.neutral⟩
  rw [e1]
  refine ⟨fid, cv', m, _, rfl, e2, e3, rfl, ?_⟩
  intro c hc
  exact accumulate_spec o hc (f :: fs) ts _ hf hv

theorem on_vars {ts : List (Term V)} {vs : List Nat} : ∀ t ∈ on ts vs, t.vars = vs := by
  intro t ht
  simpa using (List.mem_filter.mp ht).2

/-- A group that is not empty. -/
theorem otherFunction_got {T : Types} {gm : GM V} (hT : T.Ok gm) (hord : OrderedFns gm) {o : Operation V} (ho : o.IsCommMonoid) {cv : GM (Option V)} {m : FidMap}
    {q : Problem (Option V)} (h : Inv T gm cv m q) {fs : List FactorRec} (hne : fs ≠ []) {ts : List (Term V)} {vars : List Nat}
    (hf : List.Forall₂ (FactorMatches gm) fs ts) (hv : ∀ t ∈ ts, t.vars = vars) :
    Got T gm vars (fun c => (ts.map (fun t => t.table c)).foldl o.op o.neutral) q (otherFunction T o gm cv m fs) := by
  match fs, hne, hf with
  | [f], _, .cons (b := t) h1 .nil =>
    have := inject_got hT hord h h1
    rw [hv t (by simp)] at this
    simp only [otherFunction, List.map_cons, List.map_nil, List.foldl_cons, List.foldl_nil, ho.neutral_left]
    exact this
  | f :: g :: fs, _, hf => exact addView_got hT o h hf hv

theorem unaryFunction_got {T : Types} {gm : GM V} (hT : T.Ok gm) (hord : OrderedFns gm) {o : Operation V} (ho : o.IsCommMonoid) {cv : GM (Option V)} {m : FidMap}
    {q : Problem (Option V)} (h : Inv T gm cv m q) {i : Nat} (hi : i < gm.numLabels.length) {fs : List FactorRec} {ts : List (Term V)}
    (hf : List.Forall₂ (FactorMatches gm) fs ts) (hv : ∀ t ∈ ts, t.vars = [i]) :
    Got T gm [i] (fun c => (ts.map (fun t => t.table c)).foldl o.op o.neutral) q (unaryFunction T o o.neutral gm cv m i fs) := by
  cases fs with
  | nil =>
    cases hf
    unfold unaryFunction
    simp only
    rw [List.getElem?_eq_getElem hi]
    simp only
    obtain ⟨fid, cv', e1, e2, e3⟩ := addFunction_got h hT.const ⟨[gm.numLabels[i]], fun _ => some o.neutral⟩
    rw [e1]
    refine ⟨fid, cv', m, _, rfl, e2, e3, ?_, fun c hc => rfl⟩
    simp [restrict, List.getElem?_eq_getElem hi]
  | cons f fs =>
    have := otherFunction_got hT hord ho h (List.cons_ne_nil f fs) hf hv
    cases fs with
    | nil => exact this
    | cons g fs => exact this

/-! ### the loops -/

/-- The term of the canonical view. -/
def liftedTerm (o : Operation V) (p : Problem V) (vs : List Nat) : Term (Option V) := ⟨vs, fun c => some ((combined o p vs).table c)⟩

theorem addFactor_got {T : Types} {gm : GM V} {q : Problem (Option V)} {vars : List Nat} {table : List Nat → V}
    {r : Option (FunctionIdentifier × GM (Option V) × FidMap)} (h : Got T gm vars table q r) (hs : vars.Pairwise (· < ·)) (hr : ∀ v ∈ vars, v < gm.numLabels.length) :
    ∃ fid cv' m' j cv'', r = some (fid, cv', m') ∧ cv'.addFactor fid vars = .ok j cv'' ∧
      Inv T gm cv'' m' ⟨q.numLabels, q.terms ++ [⟨vars, fun c => some (table c)⟩]⟩ := by
  obtain ⟨fid, cv', m', fn, e1, e2, e3, e4, e5⟩ := h
  obtain ⟨cv'', g1, g2, g3⟩ := represents_addFactor e2.rep fid ⟨vars, fun c => some (table c)⟩ fn hs (by rw [e2.labels]; exact hr) e3 (by rw [e2.labels]; exact e4) e5
  refine ⟨fid, cv', m', _, cv'', e1, g1, g2, ?_, by rw [g3]; exact e2.types, e2.nodup, ?_⟩
  · rw [g2.labels]
    have := e2.rep.labels
    rw [← e2.labels, this]
  · intro e he
    obtain ⟨fn', a1, a2⟩ := e2.map e he
    refine ⟨fn', a1, ?_⟩
    unfold GM.getFunction at a2 ⊢
    rw [g3]
    exact a2

theorem unaryLoop_spec {T : Types} {gm : GM V} (hT : T.Ok gm) (hord : OrderedFns gm) {o : Operation V} (ho : o.IsCommMonoid) {p : Problem V} :
    ∀ (us : List (List FactorRec)) (i : Nat) (cv : GM (Option V)) (m : FidMap) (q : Problem (Option V)), Inv T gm cv m q → i + us.length = gm.numLabels.length →
    (∀ (k : Nat) (fs : List FactorRec), us[k]? = some fs → List.Forall₂ (FactorMatches gm) fs (on p.terms [i + k])) →
    ∃ cv' m', unaryLoop T o o.neutral gm i us cv m = some (cv', m') ∧
      Inv T gm cv' m' ⟨q.numLabels, q.terms ++ (List.range' i us.length).map (fun v => liftedTerm o p [v])⟩
  | [], i, cv, m, q, h, _, _ => ⟨cv, m, rfl, by simpa using h⟩
  | fs :: us, i, cv, m, q, h, hl, hg => by
    rw [List.length_cons] at hl
    have hi : i < gm.numLabels.length := by omega
    have h0 := hg 0 fs rfl
    rw [Nat.add_zero] at h0
    obtain ⟨fid, cv', m', j, cv'', e1, e2, e3⟩ := addFactor_got (unaryFunction_got hT hord ho h hi h0 on_vars) (by simp) (by simpa using hi)
    obtain ⟨c2, m2, g1, g2⟩ := unaryLoop_spec hT hord ho (p := p) us (i + 1) cv'' m' _ e3 (by omega) (by
      intro k fs' hk
      have := hg (k + 1) fs' hk
      rw [show i + (k + 1) = i + 1 + k by omega] at this
      exact this)
    refine ⟨c2, m2, ?_, ?_⟩
    · rw [unaryLoop, e1]
      simp only
      rw [e2]
      exact g1
    · simp only [List.append_assoc] at g2
      exact g2

theorem otherLoop_spec {T : Types} {gm : GM V} (hT : T.Ok gm) (hord : OrderedFns gm) {o : Operation V} (ho : o.IsCommMonoid) {p : Problem V} :
    ∀ (es : FactorMap) (cv : GM (Option V)) (m : FidMap) (q : Problem (Option V)), Inv T gm cv m q →
    (∀ e ∈ es, e.2 ≠ [] ∧ List.Forall₂ (FactorMatches gm) e.2 (on p.terms e.1)) →
    ∃ cv' m', otherLoop T o gm es cv m = some (cv', m') ∧
      Inv T gm cv' m' ⟨q.numLabels, q.terms ++ (es.map Prod.fst).map (fun vs => liftedTerm o p vs)⟩
  | [], cv, m, q, h, _ => ⟨cv, m, rfl, by simpa using h⟩
  | (vs, fs) :: es, cv, m, q, h, hg => by
    obtain ⟨hne, h0⟩ := hg (vs, fs) (by simp)
    simp only at hne h0
    obtain ⟨hs, hr⟩ : vs.Pairwise (· < ·) ∧ ∀ v ∈ vs, v < gm.numLabels.length := by
      have hvars := on_vars (ts := p.terms) (vs := vs)
      generalize on p.terms vs = ts at h0 hvars
      cases h0 with
      | nil => exact absurd rfl hne
      | cons h1 h2 =>
        have := hvars _ (List.mem_cons_self)
        exact ⟨this ▸ h1.sorted, this ▸ h1.range⟩
    obtain ⟨fid, cv', m', j, cv'', e1, e2, e3⟩ := addFactor_got (otherFunction_got hT hord ho h hne h0 on_vars) hs hr
    obtain ⟨c2, m2, g1, g2⟩ := otherLoop_spec hT hord ho (p := p) es cv'' m' _ e3 (fun e he => hg e (by simp [he]))
    refine ⟨c2, m2, ?_, ?_⟩
    · rw [otherLoop, e1]
      simp only
      rw [e2]
      exact g1
    · simp only [List.append_assoc] at g2
      exact g2

theorem make_spec {T : Types} {gm : GM V} {p : Problem V} (hr : Represents gm p) (hT : T.Ok gm) (hord : OrderedFns gm) {o : Operation V} (ho : o.IsCommMonoid) :
    ∃ cv scopes, make T o o.neutral gm = some cv ∧ CanonicalScopes p scopes ∧ Represents cv ⟨p.numLabels, scopes.map (fun vs => liftedTerm o p vs)⟩ := by
  obtain ⟨u, m, e1, e2, e3⟩ := groupLoop_spec gm.factors p.terms [] (List.replicate gm.numberOfVariables []) [] hr.factors
    ⟨by simp [GM.numberOfVariables], by
      intro v us hv
      rw [List.getElem?_replicate] at hv
      split at hv
      · cases hv; exact .nil
      · cases hv⟩
    ⟨by simp, by simp, by simp⟩
  rw [List.nil_append] at e2 e3
  have h0 : Inv T gm (GM.ofSpace T.n gm.numLabels) [] ⟨gm.numLabels, []⟩ :=
    ⟨represents_ofSpace _ _, rfl, by simp [GM.ofSpace], by simp, by simp⟩
  obtain ⟨c1, m1, g1, g2⟩ := unaryLoop_spec hT hord ho (p := p) u 0 _ _ _ h0 (by rw [e2.len]; omega) (by
    intro k fs hk
    rw [Nat.zero_add]
    exact e2.groups k fs hk)
  obtain ⟨c2, m2, k1, k2⟩ := otherLoop_spec hT hord ho (p := p) m c1 m1 _ g2 e3.groups
  refine ⟨c2, (List.range p.numLabels.length).map (fun v => [v]) ++ m.map Prod.fst, ?_, ⟨m.map Prod.fst, rfl, e3.sorted, e3.keys⟩, ?_⟩
  · unfold make
    rw [e1]
    simp only
    rw [g1]
    simp only
    rw [k1]
    rfl
  · have := k2.rep
    rw [hr.labels, e2.len, hr.labels] at this
    simp only [List.nil_append, ← List.range_eq_range'] at this
    rw [List.map_append, List.map_map]
    exact this

/-! ### the value of a labeling -/

theorem total_groups {o : Operation V} (ho : o.IsCommMonoid) (val : Term V → V) : ∀ (scopes : List (List Nat)) (ts : List (Term V)), scopes.Nodup →
    (∀ t ∈ ts, t.vars ∈ scopes) → total o (scopes.map (fun vs => total o ((on ts vs).map val))) = total o (ts.map val)
  | [], ts, _, h => by
    cases ts with
    | nil => rfl
    | cons t ts => simpa using h t (by simp)
  | s :: scopes, ts, hn, h => by
    rw [List.nodup_cons] at hn
    rw [List.map_cons, total_cons ho]
    have hperm : (on ts s ++ ts.filter (fun t => !decide (t.vars = s))).Perm ts := List.filter_append_perm _ ts
    rw [← total_perm ho (hperm.map val), List.map_append, total_append ho]
    congr 1
    rw [← total_groups ho val scopes (ts.filter (fun t => !decide (t.vars = s))) hn.2]
    · congr 1
      apply List.map_congr_left
      intro vs hvs
      congr 2
      unfold on
      rw [List.filter_filter]
      apply List.filter_congr
      intro t ht
      by_cases hc : t.vars = vs
      · have : vs ≠ s := by rintro rfl; exact hn.1 hvs
        simp [hc, this]
      · simp [hc]
    · intro t ht
      rw [List.mem_filter] at ht
      have h1 : t.vars ≠ s := by simpa using ht.2
      rcases List.mem_cons.mp (h t ht.1) with h2 | h2
      · exact absurd h2 h1
      · exact h2

theorem canonicalScopes_nodup {p : Problem V} {scopes : List (List Nat)} (h : CanonicalScopes p scopes) : scopes.Nodup := by
  obtain ⟨ks, rfl, h2, h3⟩ := h
  rw [List.nodup_append]
  refine ⟨?_, ?_, ?_⟩
  · exact (List.nodup_range).map (fun a b hab => by simpa using hab)
  · exact h2.imp (fun {a b} hab => by rintro rfl; exact lex_irrefl _ hab)
  · rintro a ha b hb rfl
    obtain ⟨v, _, rfl⟩ := List.mem_map.mp ha
    exact ((h3 _).mp hb).1 rfl

theorem canonicalScopes_mem {p : Problem V} {scopes : List (List Nat)} (h : CanonicalScopes p scopes) {t : Term V} (ht : t ∈ p.terms)
    (hr : ∀ v ∈ t.vars, v < p.numLabels.length) : t.vars ∈ scopes := by
  obtain ⟨ks, rfl, h2, h3⟩ := h
  rw [List.mem_append]
  by_cases hl : t.vars.length = 1
  · left
    obtain ⟨v, hv⟩ := List.length_eq_one_iff.mp hl
    rw [hv]
    exact List.mem_map.mpr ⟨v, List.mem_range.mpr (hr v (by simp [hv])), rfl⟩
  · right
    exact (h3 _).mpr ⟨hl, t, ht, rfl⟩

theorem lifted_energy {o : Operation V} (ho : o.IsCommMonoid) {p : Problem V} {scopes : List (List Nat)} (h : CanonicalScopes p scopes)
    (hr : ∀ t ∈ p.terms, ∀ v ∈ t.vars, v < p.numLabels.length) (x : List Nat) :
    Problem.energy (liftOp o) ⟨p.numLabels, scopes.map (fun vs => liftedTerm o p vs)⟩ x = some (p.energy o x) := by
  unfold Problem.energy
  simp only [List.map_map]
  have : (scopes.map ((fun t : Term (Option V) => t.value x) ∘ fun vs => liftedTerm o p vs)) =
      (scopes.map (fun vs => total o ((on p.terms vs).map (fun t => t.value x)))).map some := by
    rw [List.map_map]
    apply List.map_congr_left
    intro vs _
    simp only [Function.comp, liftedTerm, Term.value, combined, total, on]
    congr 2
    apply List.map_congr_left
    intro t ht
    have : t.vars = vs := by simpa using (List.mem_filter.mp ht).2
    rw [this]
  rw [this]
  show List.foldl (liftOp o).op (some o.neutral) _ = _
  rw [liftOp_foldl]
  congr 1
  exact total_groups ho (fun t => t.value x) scopes p.terms (canonicalScopes_nodup h) (fun t ht => canonicalScopes_mem h ht (hr t ht))

end CanonicalView
end OpenGM
