import Verif.Model.ModelCopy
import Verif.Lemmas.Built
import Verif.Lemmas.Manipulator
/-
Model objects in a store.
-/
namespace OpenGM
open Spec
namespace ModelStore
variable {V : Type}

/-! ### Calls on one object -/

theorem addFactorLoop_functions (f : FactorRec) (idx : Nat) : ∀ (k i : Nat) (gm gm' : GM V) (n : Nat),
    GM.addFactorLoop gm f idx i k = .ok n gm' → gm'.functions = gm.functions := by
  intro k
  induction k with
  | zero => intro i gm gm' n h; simp only [GM.addFactorLoop, Outcome.ok.injEq] at h; rw [h.2]
  | succ k ih =>
    intro i gm gm' n h
    unfold GM.addFactorLoop at h
    split at h
    · simp at h
    · split at h
      · simp at h
      · simp at h
      · split at h
        · split at h
          · simp at h
          · have := ih _ _ _ _ h; exact this
        · simp at h

theorem addFactor_functions {gm gm' : GM V} {fid : FunctionIdentifier} {vars : List Nat} {n : Nat} (h : gm.addFactor fid vars = .ok n gm') :
    gm'.functions = gm.functions := by
  have := addFactorLoop_functions _ _ _ _ _ _ _ h
  rw [this]

/-- Functions are only held of used classes. -/
def HoldsUsed (classes used : List Nat) (functions : List (List (Fn V))) : Prop :=
  ∀ (i c : Nat) (fs : List (Fn V)), classes[i]? = some c → functions[i]? = some fs → fs ≠ [] → c ∈ used

theorem holdsUsed_set {classes used : List Nat} {functions : List (List (Fn V))} (h : HoldsUsed classes used functions) (ty : Nat) (fs : List (Fn V)) :
    HoldsUsed classes (used ++ (classes[ty]?).toList) (functions.set ty fs) := by
  intro i c gs hc hf hne
  by_cases hi : i = ty
  · subst hi; rw [hc]; simp
  · rw [List.getElem?_set_ne (Ne.symm hi)] at hf
    exact List.mem_append_left _ (h i c gs hc hf hne)

theorem step_used {eqv : Fn V → Fn V → Bool} {c c' : Client V} {op : BuildOp V} {classes used : List Nat}
    (h : HoldsUsed classes used c.gm.functions) (hs : c.step eqv op = .ok () c') :
    HoldsUsed classes (used ++ op.class classes) c'.gm.functions := by
  have hmono : ∀ l : List Nat, HoldsUsed classes (used ++ l) c.gm.functions := by
    intro l i cl fs h1 h2 h3
    exact List.mem_append_left _ (h i cl fs h1 h2 h3)
  cases op with
  | addVariable n =>
    simp only [Client.step, Outcome.ok.injEq, true_and] at hs
    subst hs
    exact hmono _
  | addFunction ty f =>
    simp only [Client.step, GM.addFunction] at hs
    cases ht : c.gm.functions[ty]? with
    | none => rw [ht] at hs; simp at hs
    | some tbl =>
      rw [ht] at hs
      simp only [Outcome.ok.injEq, true_and] at hs
      subst hs
      exact holdsUsed_set h ty _
  | addSharedFunction ty f =>
    simp only [Client.step, GM.addSharedFunction] at hs
    cases ht : c.gm.functions[ty]? with
    | none => rw [ht] at hs; simp at hs
    | some tbl =>
      rw [ht] at hs
      simp only at hs
      cases hfd : GM.findFunction eqv f tbl 0 with
      | some i =>
        rw [hfd] at hs
        simp only [Outcome.ok.injEq, true_and] at hs
        subst hs
        exact hmono _
      | none =>
        rw [hfd] at hs
        simp only [Outcome.ok.injEq, true_and] at hs
        subst hs
        exact holdsUsed_set h ty _
  | addFactor hd vars =>
    simp only [Client.step] at hs
    cases hid : c.ids[hd]? with
    | none => rw [hid] at hs; simp at hs
    | some id =>
      rw [hid] at hs
      simp only at hs
      cases hf : c.gm.addFactor id vars with
      | ub => rw [hf] at hs; simp at hs
      | throw g => rw [hf] at hs; simp at hs
      | ok n g =>
        rw [hf] at hs
        simp only [Outcome.ok.injEq, true_and] at hs
        subst hs
        rw [addFactor_functions hf]
        exact hmono _

/-- Functions are held of all used classes. -/
def UsedHeld (classes used : List Nat) (functions : List (List (Fn V))) : Prop :=
  ∀ c ∈ used, ∃ (i : Nat) (fs : List (Fn V)), classes[i]? = some c ∧ functions[i]? = some fs ∧ fs ≠ []

theorem usedHeld_set {classes used : List Nat} {functions : List (List (Fn V))} (h : UsedHeld classes used functions) {ty : Nat} (hty : ty < functions.length)
    (fs : List (Fn V)) (hfs : fs ≠ []) : UsedHeld classes (used ++ (classes[ty]?).toList) (functions.set ty fs) := by
  intro c hc
  rcases List.mem_append.mp hc with hc | hc
  · obtain ⟨i, gs, h1, h2, h3⟩ := h c hc
    by_cases hi : i = ty
    · subst hi
      exact ⟨i, fs, h1, by rw [List.getElem?_set_self hty], hfs⟩
    · exact ⟨i, gs, h1, by rw [List.getElem?_set_ne (Ne.symm hi)]; exact h2, h3⟩
  · simp only [Option.mem_toList, Option.mem_def] at hc
    exact ⟨ty, fs, hc, by rw [List.getElem?_set_self hty], hfs⟩

theorem step_held {eqv : Fn V → Fn V → Bool} {c c' : Client V} {op : BuildOp V} {classes used : List Nat}
    (h : UsedHeld classes used c.gm.functions) (hs : c.step eqv op = .ok () c') :
    UsedHeld classes (used ++ op.class classes) c'.gm.functions := by
  cases op with
  | addVariable n =>
    simp only [Client.step, Outcome.ok.injEq, true_and] at hs
    subst hs
    simp only [BuildOp.class, List.append_nil]
    exact h
  | addFunction ty f =>
    simp only [Client.step, GM.addFunction] at hs
    cases ht : c.gm.functions[ty]? with
    | none => rw [ht] at hs; simp at hs
    | some tbl =>
      rw [ht] at hs
      simp only [Outcome.ok.injEq, true_and] at hs
      subst hs
      exact usedHeld_set h (List.getElem?_eq_some_iff.mp ht).1 _ (by simp)
  | addSharedFunction ty f =>
    simp only [Client.step, GM.addSharedFunction] at hs
    cases ht : c.gm.functions[ty]? with
    | none => rw [ht] at hs; simp at hs
    | some tbl =>
      rw [ht] at hs
      simp only at hs
      cases hfd : GM.findFunction eqv f tbl 0 with
      | some i =>
        rw [hfd] at hs
        simp only [Outcome.ok.injEq, true_and] at hs
        subst hs
        intro cl hcl
        rcases List.mem_append.mp hcl with hcl | hcl
        · exact h cl hcl
        · simp only [BuildOp.class, Option.mem_toList, Option.mem_def] at hcl
          refine ⟨ty, tbl, hcl, ht, ?_⟩
          intro h0
          subst h0
          simp [GM.findFunction] at hfd
      | none =>
        rw [hfd] at hs
        simp only [Outcome.ok.injEq, true_and] at hs
        subst hs
        exact usedHeld_set h (List.getElem?_eq_some_iff.mp ht).1 _ (by simp)
  | addFactor hd vars =>
    simp only [Client.step] at hs
    cases hid : c.ids[hd]? with
    | none => rw [hid] at hs; simp at hs
    | some id =>
      rw [hid] at hs
      simp only at hs
      cases hf : c.gm.addFactor id vars with
      | ub => rw [hf] at hs; simp at hs
      | throw g => rw [hf] at hs; simp at hs
      | ok n g =>
        rw [hf] at hs
        simp only [Outcome.ok.injEq, true_and] at hs
        subst hs
        rw [addFactor_functions hf]
        simpa [BuildOp.class] using h

/-- The object at address `a` holds `A`. -/
structure PlaceInv (a : Nat) (pl : Place V) (A : ModelObject V) : Prop where
  classes : pl.obj.classes = A.classes
  nodup : A.classes.Nodup
  inv : ClientInv A.classes.length ⟨pl.obj.gm, pl.ids⟩ A.built
  ptrs : pl.obj.ptrs = List.replicate A.built.terms.length (a, a)
  used : HoldsUsed A.classes A.used pl.obj.gm.functions
  held : UsedHeld A.classes A.used pl.obj.gm.functions

theorem PlaceInv.factors {a : Nat} {pl : Place V} {A : ModelObject V} (h : PlaceInv a pl A) : pl.obj.gm.factors.length = A.built.terms.length :=
  h.inv.rep.factors.length_eq

theorem terms_length_apply {n : Nat} {b : Built V} {op : BuildOp V} (hv : op.Valid n b) (ptrs : List (Nat × Nat)) (a : Nat)
    (h : ptrs = List.replicate b.terms.length (a, a)) : newPtrs a ptrs op = List.replicate (op.apply b).terms.length (a, a) := by
  cases op with
  | addVariable n => simpa [newPtrs, BuildOp.apply] using h
  | addFunction ty f => simpa [newPtrs, BuildOp.apply] using h
  | addSharedFunction ty f => simpa [newPtrs, BuildOp.apply] using h
  | addFactor hd vars =>
    obtain ⟨_, _, f, hf, _⟩ := hv
    simp only [newPtrs, BuildOp.apply, hf, h, List.length_append, List.length_cons, List.length_nil]
    rw [List.replicate_succ']

/-! ### Copies -/

theorem copyFactor_eq (this : Nat) : ∀ (fs : List FactorRec) (ptrs : List (Nat × Nat)), ptrs.length = fs.length →
    ((fs.zip ptrs).map (copyFactor this)).map Prod.fst = fs ∧ ((fs.zip ptrs).map (copyFactor this)).map Prod.snd = List.replicate fs.length (this, this)
  | [], _, _ => by simp
  | f :: fs, [], h => by simp at h
  | f :: fs, q :: ptrs, h => by
    obtain ⟨h1, h2⟩ := copyFactor_eq this fs ptrs (by simpa using h)
    refine ⟨?_, ?_⟩
    · simp only [List.zip_cons_cons, List.map_cons, h1]
      rfl
    · simp only [List.zip_cons_cons, List.map_cons, h2, List.length_cons, List.replicate_succ]
      rfl

theorem copy_inv {a this : Nat} {pl : Place V} {A : ModelObject V} (h : PlaceInv a pl A) : PlaceInv this ⟨copyConstruct this pl.obj, pl.ids⟩ A := by
  obtain ⟨h1, h2⟩ := copyFactor_eq this pl.obj.gm.factors pl.obj.ptrs (by rw [h.ptrs, h.factors]; simp)
  have hgm : (copyConstruct this pl.obj).gm = pl.obj.gm := by
    unfold copyConstruct
    simp only [h1]
    rfl
  refine ⟨h.classes, h.nodup, ?_, ?_, ?_, ?_⟩
  · simp only [hgm]; exact h.inv
  · simp only [copyConstruct, h2, h.factors]
  · simp only [hgm]; exact h.used
  · simp only [hgm]; exact h.held

theorem assignSame_inv {a b : Nat} {pa pb : Place V} {A B : ModelObject V} (ha : PlaceInv a pa A) (hb : PlaceInv b pb B) (hc : A.classes = B.classes)
    (hself : a = b → pa = pb ∧ A = B) : PlaceInv a ⟨assignSame a b pa.obj pb.obj, pb.ids⟩ (A.assign B) := by
  have hAB : A.assign B = B := by simp [ModelObject.assign, hc]
  rw [hAB]
  unfold assignSame
  split
  · rename_i hab
    obtain ⟨h1, h2⟩ := hself hab
    subst hab h1 h2
    exact hb
  · obtain ⟨h1, h2⟩ := copyFactor_eq a pb.obj.gm.factors pb.obj.ptrs (by rw [hb.ptrs, hb.factors]; simp)
    refine ⟨by simp only [ha.classes, hc], hb.nodup, ?_, ?_, hb.used, hb.held⟩
    · simp only [h1]; exact hb.inv
    · simp only [h2, hb.factors]

theorem indexIn_some : ∀ {l : List Nat} {x j : Nat}, indexIn l x = some j → l[j]? = some x
  | [], x, j, h => by simp [indexIn] at h
  | c :: cs, x, j, h => by
    unfold indexIn at h
    split at h
    · rename_i hc
      simp only [Option.some.injEq] at h
      subst h hc
      rfl
    · cases hi : indexIn cs x with
      | none => rw [hi] at h; simp at h
      | some k =>
        rw [hi] at h
        simp only [Option.map_some, Option.some.injEq] at h
        subst h
        simpa using indexIn_some hi

theorem indexIn_none : ∀ {l : List Nat} {x : Nat}, indexIn l x = none → x ∉ l
  | [], x, _ => by simp
  | c :: cs, x, h => by
    unfold indexIn at h
    split at h
    · simp at h
    · rename_i hc
      simp only [Option.map_eq_none_iff] at h
      simp only [List.mem_cons, not_or]
      exact ⟨fun h' => hc h'.symm, indexIn_none h⟩

theorem copyFunctions_spec {dstClasses : List Nat} : ∀ (src : List (Nat × List (Fn V))) (dst : List (List (Fn V))) (map : List (Option Nat)),
    (src.map Prod.fst).Nodup → dst.length = dstClasses.length → (∀ c fs, (c, fs) ∈ src → fs ≠ [] → c ∈ dstClasses) →
    ∃ dst', copyFunctions dstClasses src dst map = .ok (map ++ (src.map Prod.fst).map (indexIn dstClasses)) dst' ∧ dst'.length = dst.length ∧
      (∀ c fs j, (c, fs) ∈ src → indexIn dstClasses c = some j → dst'[j]? = some fs) ∧
      ∀ j : Nat, (∀ c ∈ src.map Prod.fst, dstClasses[j]? ≠ some c) → dst'[j]? = dst[j]?
  | [], dst, map, _, _, _ => ⟨dst, by simp [copyFunctions], rfl, by simp, fun _ _ => rfl⟩
  | (c, fs) :: rest, dst, map, hn, hl, hc => by
    have hn' := hn
    simp only [List.map_cons, List.nodup_cons] at hn'
    unfold copyFunctions
    cases hi : indexIn dstClasses c with
    | none =>
      have hfs : fs = [] := by
        cases hfs : fs with
        | nil => rfl
        | cons a t => exact absurd (hc c fs (by simp) (by rw [hfs]; simp)) (indexIn_none hi)
      simp only [hfs, List.length_nil, if_true]
      obtain ⟨dst', e1, e2, e3, e4⟩ := copyFunctions_spec rest dst (map ++ [none]) hn'.2 hl (fun c fs h => hc c fs (by simp [h]))
      refine ⟨dst', ?_, e2, ?_, ?_⟩
      · rw [e1]; simp [hi]
      · intro c' fs' j hmem hj
        rcases List.mem_cons.mp hmem with h | h
        · simp only [Prod.mk.injEq] at h
          rw [h.1, hi] at hj
          simp at hj
        · exact e3 c' fs' j h hj
      · intro j hj
        exact e4 j (fun c' hc' => hj c' (by simp only [List.map_cons, List.mem_cons]; exact Or.inr hc'))
    | some j0 =>
      have hj0 := indexIn_some hi
      have hlt : j0 < dst.length := by rw [hl]; exact (List.getElem?_eq_some_iff.mp hj0).1
      simp only [setAt_of_lt _ hlt]
      obtain ⟨dst', e1, e2, e3, e4⟩ := copyFunctions_spec rest (dst.set j0 fs) (map ++ [some j0]) hn'.2 (by simpa using hl) (fun c fs h => hc c fs (by simp [h]))
      refine ⟨dst', ?_, by simpa using e2, ?_, ?_⟩
      · rw [e1]; simp [hi]
      · intro c' fs' j hmem hj
        rcases List.mem_cons.mp hmem with h | h
        · simp only [Prod.mk.injEq] at h
          obtain ⟨rfl, rfl⟩ := h
          rw [hi] at hj
          simp only [Option.some.injEq] at hj
          subst hj
          rw [e4 j0, List.getElem?_set_self hlt]
          intro c'' hc'' he
          rw [hj0] at he
          simp only [Option.some.injEq] at he
          subst he
          exact hn'.1 hc''
        · exact e3 c' fs' j h hj
      · intro j hj
        rw [e4 j (fun c' hc' => hj c' (by simp only [List.map_cons, List.mem_cons]; exact Or.inr hc'))]
        rw [List.getElem?_set_ne]
        intro he
        subst he
        exact hj c (by simp) hj0

theorem zip_fst {α β : Type} : ∀ (l : List α) (m : List β), l.length = m.length → (l.zip m).map Prod.fst = l
  | [], [], _ => rfl
  | [], _ :: _, h => by simp at h
  | _ :: _, [], h => by simp at h
  | a :: l, b :: m, h => by simp [zip_fst l m (by simpa using h)]

theorem mapped_spec (this : Nat) (map : List (Option Nat)) (gm gm' : GM V) (hlabels : gm'.numLabels = gm.numLabels) (hvis : gm'.factorsVis = gm.factorsVis)
    (hfn : ∀ i ty fn, gm.getFunction ⟨i, ty⟩ = some fn → ∃ j, map[ty]? = some (some j) ∧ gm'.getFunction ⟨i, j⟩ = some fn) :
    ∀ (fs : List FactorRec) (ts : List (Term V)), List.Forall₂ (FactorMatches gm) fs ts → ∀ ptrs : List (Nat × Nat), ptrs.length = fs.length →
    ∃ l, (fs.zip ptrs).mapM (copyFactorMapped this map) = some l ∧ List.Forall₂ (FactorMatches gm') (l.map Prod.fst) ts ∧
      l.map Prod.snd = List.replicate ts.length (this, this) := by
  intro fs ts h
  induction h with
  | nil => intro ptrs _; exact ⟨[], by simp, List.Forall₂.nil, rfl⟩
  | @cons f t fs ts hm _ ih =>
    intro ptrs hl
    cases ptrs with
    | nil => simp at hl
    | cons q ptrs =>
      obtain ⟨l, e1, e2, e3⟩ := ih ptrs (by simpa using hl)
      obtain ⟨fn, g1, g2, g3⟩ := hm.fn
      obtain ⟨j, k1, k2⟩ := hfn _ _ _ g1
      refine ⟨(⟨f.functionIndex, j, f.visStart, f.visSize⟩, this, this) :: l, ?_, ?_, ?_⟩
      · rw [List.zip_cons_cons, List.mapM_cons]
        simp only [copyFactorMapped, k1]
        rw [e1]
        rfl
      · refine List.Forall₂.cons ⟨?_, ?_, hm.sorted, ?_, fn, k2, ?_, g3⟩ e2
        · simp only [hvis]; exact hm.bound
        · simp only [GM.scope, hvis]; exact hm.scope
        · rw [hlabels]; exact hm.range
        · rw [hlabels]; exact g2
      · simp only [List.map_cons, e3, List.length_cons, List.replicate_succ]

theorem assignOther_inv {a b : Nat} {pa pb : Place V} {A B : ModelObject V} (ha : PlaceInv a pa A) (hb : PlaceInv b pb B) (hne : A.classes ≠ B.classes)
    (hc : ∀ c ∈ B.used, c ∈ A.classes) :
    ∃ map obj, assignOther a pa.obj pb.obj = .ok map obj ∧ PlaceInv a ⟨obj, pb.ids.map (translate pa.obj.classes pb.obj.classes)⟩ (A.assign B) := by
  have hBl : B.classes.length = pb.obj.gm.functions.length := hb.inv.types.symm
  have hAl : pa.obj.gm.functions.length = A.classes.length := ha.inv.types
  have hzf := zip_fst B.classes pb.obj.gm.functions hBl
  have hzget : ∀ (i c : Nat) (fs : List (Fn V)), B.classes[i]? = some c → pb.obj.gm.functions[i]? = some fs → (c, fs) ∈ B.classes.zip pb.obj.gm.functions := by
    intro i c fs h1 h2
    apply List.mem_of_getElem? (i := i)
    rw [List.getElem?_zip_eq_some]
    exact ⟨h1, h2⟩
  obtain ⟨fns, e1, e2, e3, e4⟩ := copyFunctions_spec (dstClasses := A.classes) (B.classes.zip pb.obj.gm.functions) pa.obj.gm.functions []
    (by rw [hzf]; exact hb.nodup) hAl (by
      intro c fs hmem hfs
      obtain ⟨i, hi⟩ := List.getElem?_of_mem hmem
      rw [List.getElem?_zip_eq_some] at hi
      exact hc c (hb.used i c fs hi.1 hi.2 hfs))
  rw [hzf, List.nil_append] at e1
  rw [hzf] at e4
  have hfn : ∀ i ty fn, pb.obj.gm.getFunction ⟨i, ty⟩ = some fn → ∃ j c, B.classes[ty]? = some c ∧ indexIn A.classes c = some j ∧
      ∃ tbl, fns[j]? = some tbl ∧ tbl[i]? = some fn := by
    intro i ty fn h
    unfold GM.getFunction at h
    simp only [Option.bind_eq_some_iff] at h
    obtain ⟨tbl, h1, h2⟩ := h
    have hty : ty < B.classes.length := by rw [hBl]; exact (List.getElem?_eq_some_iff.mp h1).1
    have hcl := List.getElem?_eq_getElem hty
    have hne : tbl ≠ [] := by intro h0; subst h0; simp at h2
    have hin := hc _ (hb.used ty _ tbl hcl h1 hne)
    cases hi : indexIn A.classes B.classes[ty] with
    | none => exact absurd hin (indexIn_none hi)
    | some j => exact ⟨j, _, hcl, hi, tbl, e3 _ _ _ (hzget ty _ tbl hcl h1) hi, h2⟩
  obtain ⟨l, k1, k2, k3⟩ := mapped_spec a (B.classes.map (indexIn A.classes)) pb.obj.gm
    { numLabels := pb.obj.gm.numLabels, functions := fns, adj := pb.obj.gm.adj, factors := [],
      factorsVis := pb.obj.gm.factorsVis, order := pb.obj.gm.order } rfl rfl (by
      intro i ty fn h
      obtain ⟨j, c, g1, g2, tbl, g3, g4⟩ := hfn i ty fn h
      refine ⟨j, by rw [List.getElem?_map, g1]; simp [g2], ?_⟩
      simp [GM.getFunction, g3, g4]) pb.obj.gm.factors B.built.terms hb.inv.rep.factors pb.obj.ptrs (by rw [hb.ptrs, hb.factors]; simp)
  unfold assignOther
  rw [ha.classes, hb.classes, e1]
  simp only [k1]
  refine ⟨_, _, rfl, ⟨rfl, ha.nodup, ⟨⟨⟨hb.inv.rep.labels, hb.inv.rep.adjLen, ?_, hb.inv.rep.order⟩, hb.inv.rep.adj⟩, ?_, ?_⟩, k3, ?_, ?_⟩⟩
  · exact List.Forall₂.imp (fun f t hm => ⟨hm.bound, hm.scope, hm.sorted, hm.range, hm.fn⟩) k2
  · simp only [e2, hAl, ModelObject.assign]
  · simp only [ModelObject.assign]
    rw [List.forall₂_map_left_iff]
    refine List.Forall₂.imp ?_ hb.inv.ids
    rintro id f ⟨fn, h1, h2⟩
    obtain ⟨j, c, g1, g2, tbl, g3, g4⟩ := hfn id.functionIndex id.functionType fn h1
    refine ⟨fn, ?_, h2⟩
    simp [translate, g1, g2, GM.getFunction, g3, g4]
  · intro i c fs h1 h2 h3
    simp only [ModelObject.assign, hne, if_false] at h1 ⊢
    by_cases hcB : c ∈ B.classes
    · obtain ⟨k, hk⟩ := List.getElem?_of_mem hcB
      have hkl : k < pb.obj.gm.functions.length := by rw [← hBl]; exact (List.getElem?_eq_some_iff.mp hk).1
      have hkf := List.getElem?_eq_getElem hkl
      have hcA : c ∈ A.classes := List.mem_of_getElem? h1
      cases hi : indexIn A.classes c with
      | none => exact absurd hcA (indexIn_none hi)
      | some j =>
        have hji : j = i := by
          have hj := indexIn_some hi
          obtain ⟨hjl, hj'⟩ := List.getElem?_eq_some_iff.mp hj
          obtain ⟨hil, hi'⟩ := List.getElem?_eq_some_iff.mp h1
          exact (List.Nodup.getElem_inj_iff ha.nodup).mp (by rw [hj', hi'])
        have := e3 c _ j (hzget k c _ hk hkf) hi
        rw [hji] at this
        simp only at h2
        rw [h2] at this
        simp only [Option.some.injEq] at this
        exact List.mem_append_left _ (hb.used k c fs hk (by rw [hkf, this]) h3)
    · have := e4 i (by
        intro c' hc' he
        rw [h1] at he
        simp only [Option.some.injEq] at he
        subst he
        exact hcB hc')
      simp only at h2
      rw [h2] at this
      apply List.mem_append_right
      simp only [List.mem_filter, decide_eq_true_eq]
      exact ⟨ha.used i c fs h1 this.symm h3, hcB⟩
  · intro c hcu
    simp only [ModelObject.assign, hne, if_false] at hcu ⊢
    rcases List.mem_append.mp hcu with hcu | hcu
    · obtain ⟨k, fs, h1, h2, h3⟩ := hb.held c hcu
      cases hi : indexIn A.classes c with
      | none => exact absurd (hc c hcu) (indexIn_none hi)
      | some j => exact ⟨j, fs, indexIn_some hi, e3 c fs j (hzget k c fs h1 h2) hi, h3⟩
    · simp only [List.mem_filter, decide_eq_true_eq] at hcu
      obtain ⟨i, fs, h1, h2, h3⟩ := ha.held c hcu.1
      refine ⟨i, fs, h1, ?_, h3⟩
      rw [e4 i, h2]
      intro c' hc' he
      rw [h1] at he
      simp only [Option.some.injEq] at he
      subst he
      exact hcu.2 hc'

theorem copyFunctions_throw {dstClasses : List Nat} : ∀ (src : List (Nat × List (Fn V))) (dst : List (List (Fn V))) (map : List (Option Nat)),
    dst.length = dstClasses.length → (∃ c fs, (c, fs) ∈ src ∧ fs ≠ [] ∧ c ∉ dstClasses) →
    ∃ dst', copyFunctions dstClasses src dst map = .throw dst'
  | [], _, _, _, h => by obtain ⟨_, _, h, _⟩ := h; simp at h
  | (c, fs) :: rest, dst, map, hl, h => by
    unfold copyFunctions
    have hrest : c ∈ dstClasses ∨ fs = [] → ∃ c fs, (c, fs) ∈ rest ∧ fs ≠ [] ∧ c ∉ dstClasses := by
      intro hcf
      obtain ⟨c', fs', h1, h2, h3⟩ := h
      rcases List.mem_cons.mp h1 with h1 | h1
      · simp only [Prod.mk.injEq] at h1
        obtain ⟨rfl, rfl⟩ := h1
        rcases hcf with h | h
        · exact absurd h h3
        · exact absurd h h2
      · exact ⟨c', fs', h1, h2, h3⟩
    cases hi : indexIn dstClasses c with
    | some j =>
      have hj := indexIn_some hi
      have hlt : j < dst.length := by rw [hl]; exact (List.getElem?_eq_some_iff.mp hj).1
      simp only [setAt_of_lt _ hlt]
      exact copyFunctions_throw rest _ _ (by simpa using hl) (hrest (Or.inl (List.mem_of_getElem? hj)))
    | none =>
      simp only
      split
      · rename_i h0
        exact copyFunctions_throw rest _ _ hl (hrest (Or.inr (List.length_eq_zero_iff.mp h0)))
      · exact ⟨dst, rfl⟩

theorem assignOther_throw {a b : Nat} {pa pb : Place V} {A B : ModelObject V} (ha : PlaceInv a pa A) (hb : PlaceInv b pb B)
    (hc : ∃ c ∈ B.used, c ∉ A.classes) : ∃ fns, assignOther a pa.obj pb.obj =
      .throw { pa.obj with gm := { pa.obj.gm with numLabels := pb.obj.gm.numLabels, functions := fns } } := by
  obtain ⟨c, hcu, hcA⟩ := hc
  obtain ⟨k, fs, h1, h2, h3⟩ := hb.held c hcu
  obtain ⟨dst', h⟩ := copyFunctions_throw (dstClasses := A.classes) (B.classes.zip pb.obj.gm.functions) pa.obj.gm.functions [] ha.inv.types
    ⟨c, fs, by apply List.mem_of_getElem? (i := k); rw [List.getElem?_zip_eq_some]; exact ⟨h1, h2⟩, h3, hcA⟩
  exact ⟨dst', by unfold assignOther; rw [hb.classes]; rw [← ha.classes] at h; rw [h]⟩

/-! ### The store -/

/-- The store holds the objects. -/
structure StoreInv (st : Store V) (s : List (Option (ModelObject V))) : Prop where
  len : st.length = s.length
  live : ∀ (a : Nat) (A : ModelObject V), s[a]? = some (some A) → ∃ pl, st[a]? = some (some pl) ∧ PlaceInv a pl A

theorem StoreInv.append {st : Store V} {s : List (Option (ModelObject V))} (h : StoreInv st s) {pl : Place V} {A : ModelObject V}
    (hp : PlaceInv st.length pl A) : StoreInv (st ++ [some pl]) (s ++ [some A]) := by
  refine ⟨by simp [h.len], ?_⟩
  intro a B hB
  by_cases ha : a < s.length
  · rw [List.getElem?_append_left ha] at hB
    obtain ⟨pl', h1, h2⟩ := h.live a B hB
    exact ⟨pl', by rw [List.getElem?_append_left (by rw [h.len]; exact ha)]; exact h1, h2⟩
  · rw [List.getElem?_append_right (by omega)] at hB
    have : a - s.length = 0 := by
      by_cases h0 : a - s.length = 0
      · exact h0
      · rw [List.getElem?_eq_none (by simp; omega)] at hB
        simp at hB
    rw [this] at hB
    simp only [List.getElem?_cons_zero, Option.some.injEq] at hB
    subst hB
    have hal : a = st.length := by rw [h.len]; omega
    subst hal
    exact ⟨pl, by simp, hp⟩

theorem StoreInv.set {st : Store V} {s : List (Option (ModelObject V))} (h : StoreInv st s) {c : Nat} {pl : Place V} {A : ModelObject V}
    (hc : c < s.length) (hp : PlaceInv c pl A) : StoreInv (st.set c (some pl)) (s.set c (some A)) := by
  refine ⟨by simp [h.len], ?_⟩
  intro a B hB
  by_cases ha : a = c
  · subst ha
    rw [List.getElem?_set_self hc] at hB
    simp only [Option.some.injEq] at hB
    subst hB
    exact ⟨pl, by rw [List.getElem?_set_self (by rw [h.len]; exact hc)], hp⟩
  · rw [List.getElem?_set_ne (Ne.symm ha)] at hB
    obtain ⟨pl', h1, h2⟩ := h.live a B hB
    exact ⟨pl', by rw [List.getElem?_set_ne (Ne.symm ha)]; exact h1, h2⟩

theorem inv_step {eqv : Fn V → Fn V → Bool} (he : EqvSound eqv) {st : Store V} {s : List (Option (ModelObject V))} (h : StoreInv st s)
    (op : StoreOp V) (hv : op.Valid s) : ∃ st', step eqv st op = .ok () st' ∧ StoreInv st' (op.apply s) := by
  cases op with
  | create classes =>
    refine ⟨_, rfl, h.append ⟨rfl, hv, client_init _, rfl, ?_, by intro c hc; simp at hc⟩⟩
    intro i c fs h1 h2 h3
    simp only [GM.empty, List.getElem?_replicate] at h2
    split at h2
    · simp only [Option.some.injEq] at h2; exact absurd h2.symm h3
    · simp at h2
  | createSpace classes space =>
    refine ⟨_, rfl, h.append ⟨rfl, hv, ⟨⟨⟨rfl, by simp [GM.ofSpace], List.Forall₂.nil, rfl⟩, ?_⟩, by simp [GM.ofSpace], List.Forall₂.nil⟩, rfl, ?_, by intro c hc; simp at hc⟩⟩
    · intro v hv
      simp only [GM.ofSpace] at hv ⊢
      rw [List.getElem?_replicate, if_pos hv]
      rfl
    · intro i c fs h1 h2 h3
      simp only [GM.ofSpace, List.getElem?_replicate] at h2
      split at h2
      · simp only [Option.some.injEq] at h2; exact absurd h2.symm h3
      · simp at h2
  | build a op =>
    obtain ⟨A, hA, hop⟩ := hv
    obtain ⟨pl, h1, h2⟩ := h.live a A hA
    obtain ⟨c, e1, e2⟩ := client_step he h2.inv op hop
    simp only [step, h1, e1, StoreOp.apply, hA]
    refine ⟨_, rfl, h.set (List.getElem?_eq_some_iff.mp hA).1 ⟨h2.classes, h2.nodup, e2, terms_length_apply hop _ _ h2.ptrs,
      step_used (c := ⟨pl.obj.gm, pl.ids⟩) h2.used e1, step_held (c := ⟨pl.obj.gm, pl.ids⟩) h2.held e1⟩⟩
  | copy a =>
    obtain ⟨A, hA⟩ := hv
    obtain ⟨pl, h1, h2⟩ := h.live a A hA
    simp only [step, h1, StoreOp.apply, hA]
    exact ⟨_, rfl, h.append (copy_inv h2)⟩
  | assign a b =>
    obtain ⟨A, B, hA, hB, hc⟩ := hv
    obtain ⟨pa, ha1, ha2⟩ := h.live a A hA
    obtain ⟨pb, hb1, hb2⟩ := h.live b B hB
    have hal := (List.getElem?_eq_some_iff.mp hA).1
    simp only [step, ha1, hb1, StoreOp.apply, hA, hB, ha2.classes, hb2.classes]
    by_cases hcl : A.classes = B.classes
    · rw [if_pos hcl]
      refine ⟨_, rfl, h.set hal (assignSame_inv ha2 hb2 hcl ?_)⟩
      intro hab
      subst hab
      rw [ha1] at hb1
      rw [hA] at hB
      simp only [Option.some.injEq] at hb1 hB
      exact ⟨hb1, hB⟩
    · rw [if_neg hcl]
      obtain ⟨map, obj, e1, e2⟩ := assignOther_inv ha2 hb2 hcl (by rcases hc with hc | hc; exacts [absurd hc hcl, hc])
      rw [ha2.classes, hb2.classes] at e2
      rw [e1]
      exact ⟨_, rfl, h.set hal e2⟩
  | destroy a =>
    refine ⟨_, rfl, ⟨by simp [StoreOp.apply, h.len], ?_⟩⟩
    intro b B hB
    simp only [StoreOp.apply] at hB
    by_cases hab : b = a
    · subst hab
      rw [List.getElem?_set_self'] at hB
      cases hs : s[b]? <;> rw [hs] at hB <;> simp at hB
    · rw [List.getElem?_set_ne (Ne.symm hab)] at hB ⊢
      exact h.live b B hB

theorem inv_run {eqv : Fn V → Fn V → Bool} (he : EqvSound eqv) : ∀ (ops : List (StoreOp V)) (st : Store V) (s : List (Option (ModelObject V))),
    StoreInv st s → ValidStoreHistory s ops → ∃ st', run eqv st ops = .ok () st' ∧ StoreInv st' (ops.foldl StoreOp.apply s)
  | [], st, s, h, _ => ⟨st, rfl, h⟩
  | op :: ops, st, s, h, hv => by
    obtain ⟨st1, e1, h1⟩ := inv_step he h op hv.1
    obtain ⟨st2, e2, h2⟩ := inv_run he ops st1 _ h1 hv.2
    exact ⟨st2, by simp only [run, e1, e2], h2⟩

/-! ### Evaluation through the pointers -/

theorem fillState_eq {st : Store V} {a : Nat} {pl : Place V} (h : st[a]? = some (some pl)) (labels : List Nat) (f : FactorRec) :
    ∀ (k i : Nat) (buf : List Nat), fillState st labels a f i k buf = GM.fillState pl.obj.gm labels f i k buf := by
  intro k
  induction k with
  | zero => intro i buf; rfl
  | succ k ih =>
    intro i buf
    unfold fillState GM.fillState
    simp only [visAt, h, GM.visAt, ih]
    rfl

theorem evaluateLoop_eq (o : Operation V) {st : Store V} {a : Nat} {pl : Place V} (h : st[a]? = some (some pl)) (labels : List Nat) :
    ∀ (fs : List FactorRec) (buf : List Nat) (v : V),
    evaluateLoop o st labels (fs.zip (List.replicate fs.length (a, a))) buf v = GM.evaluateLoop o pl.obj.gm labels fs buf v
  | [], buf, v => rfl
  | f :: fs, buf, v => by
    simp only [List.length_cons, List.replicate_succ, List.zip_cons_cons]
    unfold evaluateLoop GM.evaluateLoop
    simp only [fillState_eq h, callFactor, h, evaluateLoop_eq o h labels fs]
    rfl

theorem evaluate_eq (o : Operation V) {st : Store V} {a : Nat} {pl : Place V} {A : ModelObject V} (h : st[a]? = some (some pl)) (hp : PlaceInv a pl A)
    (labels : List Nat) : evaluate o st a labels = GM.evaluate o pl.obj.gm labels := by
  unfold evaluate GM.evaluate
  simp only [h]
  rw [hp.ptrs, ← hp.factors]
  exact evaluateLoop_eq o h labels _ _ _

end ModelStore
end OpenGM
