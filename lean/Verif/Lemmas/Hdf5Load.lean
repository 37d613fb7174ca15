import Verif.Lemmas.Hdf5
/-
Lemmas on loading models.
-/
namespace OpenGM.Hdf5
open Spec Functions Marray Partitions
variable {V : Type} [CommRing V] [LinearOrder V]

/-! ### the functions -/

/-- What is known about the tables while the functions are loaded. -/
structure Tables (dst src : List Cls) (fss : List (List (Obj V))) (use : List Bool) : Prop where
  saves : List.Forall₂ Saves src fss
  nodup : (src.map Cls.id).Nodup
  known : ∀ (i : Nat) c fs, src[i]? = some c → fss[i]? = some fs → fs ≠ [] → c ∈ dst
  len : use.length = dst.length
  used : ∀ j, j < dst.length → (use[j]? = some true ↔ ∃ c ∈ src, findId c.id dst 0 = some j)

theorem Tables.lookup {dst src : List Cls} {m pos : Nat} (h : (lookupOf dst src)[m]? = some pos) : ∃ c, src[m]? = some c ∧ (findId c.id dst 0).getD 0 = pos := by
  unfold lookupOf at h
  rw [List.getElem?_map] at h
  cases hc : src[m]? with
  | none => rw [hc] at h; simp at h
  | some c =>
    rw [hc] at h
    exact ⟨c, rfl, by simpa using h⟩

theorem Tables.saves_get {dst src : List Cls} {fss : List (List (Obj V))} {use : List Bool} (h : Tables dst src fss use) {i : Nat} {c : Cls}
    (hc : src[i]? = some c) : ∃ fs, fss[i]? = some fs ∧ Saves c fs := by
  obtain ⟨hi, rfl⟩ := List.getElem?_eq_some_iff.mp hc
  have hl := h.saves.length_eq
  have := h.saves.get (i := i) hi (by omega)
  exact ⟨fss[i]'(by omega), List.getElem?_eq_getElem (by omega), by simpa using this⟩

theorem entriesOf_get {src : List Cls} {fss : List (List (Obj V))} {i : Nat} {c : Cls} {fs : List (Obj V)} (hc : src[i]? = some c) (hf : fss[i]? = some fs) :
    (entriesOf src fss)[i]? = some (c.id, fs.length) := by
  unfold entriesOf
  rw [List.getElem?_zipWith, hc, hf]

theorem loadClass_spec {dst src : List Cls} {fss : List (List (Obj V))} {use : List Bool} (h : Tables dst src fss use) {pos : Nat} {c : Cls}
    (hc : dst[pos]? = some c) (parts : List Nat) (hr : Reachable PottsG.width parts) :
    ∃ os p, loadClass (groupsOf src fss) (entriesOf src fss) (lookupOf dst src) use c pos [] parts = .ok os p ∧ Reachable PottsG.width p ∧
      (os = [] ∨ ∃ m : Nat, src[m]? = some c ∧ fss[m]? = some os) ∧
      (use[pos]? = some true → ∀ m, mappedIndex pos (lookupOf dst src) 0 = some m → fss[m]? = some os) := by
  have hpos : pos < dst.length := (List.getElem?_eq_some_iff.mp hc).1
  unfold loadClass
  cases hu : use[pos]? with
  | none =>
    have := List.getElem?_eq_none_iff.mp hu
    have := h.len
    omega
  | some b =>
    cases b with
    | false => exact ⟨[], parts, rfl, hr, Or.inl rfl, by simp⟩
    | true =>
      obtain ⟨c', hc', hfi⟩ := (h.used pos hpos).mp hu
      have hmem : pos ∈ lookupOf dst src := by
        unfold lookupOf
        exact List.mem_map.mpr ⟨c', hc', by rw [hfi]; rfl⟩
      cases hm : mappedIndex pos (lookupOf dst src) 0 with
      | none => exact absurd hmem ((mappedIndex_spec pos _ 0).2 hm)
      | some m =>
        obtain ⟨_, hl, _⟩ := (mappedIndex_spec pos _ 0).1 m hm
        obtain ⟨cm, hcm, hcp⟩ := Tables.lookup hl
        rw [Nat.sub_zero] at hcm
        obtain ⟨fs, hfs, hsv⟩ := h.saves_get hcm
        simp only
        rw [entriesOf_get hcm hfs]
        simp only
        by_cases h0 : fs = []
        · subst h0
          rw [if_neg (by simp)]
          exact ⟨[], parts, rfl, hr, Or.inl rfl, by intro _ m' hm'; obtain rfl := Option.some.inj hm'; exact hfs⟩
        · rw [if_pos (by simpa using h0)]
          have hin := h.known m cm fs hcm hfs h0
          cases hfm : findId cm.id dst 0 with
          | none => exact absurd hin ((findId_spec cm dst 0).2 hfm)
          | some k =>
            rw [hfm] at hcp
            simp only [Option.getD_some] at hcp
            obtain ⟨_, hk⟩ := (findId_spec cm dst 0).1 k hfm
            rw [Nat.sub_zero, hcp, hc] at hk
            obtain rfl := Option.some.inj hk
            rw [openGroup_spec h.nodup hcm hfs h0]
            simp only
            obtain ⟨p, hp, e⟩ := deserializeLoop_spec c fs hsv.1 [] [] parts hr
            simp only [List.nil_append, List.length_nil] at e
            exact ⟨fs, p, e, hp, Or.inr ⟨m, hcm, hfs⟩, by intro _ m' hm'; obtain rfl := Option.some.inj hm'; exact hfs⟩

theorem loadFunctions_spec {dst src : List Cls} {fss : List (List (Obj V))} {use : List Bool} (h : Tables dst src fss use) (cs : List Cls) :
    ∀ (pre : List Cls), pre ++ cs = dst → ∀ parts, Reachable PottsG.width parts →
      ∃ out p, loadFunctions (groupsOf src fss) (entriesOf src fss) (lookupOf dst src) use cs pre.length (List.replicate cs.length []) parts = .ok out p ∧
        Reachable PottsG.width p ∧ List.Forall₂ (fun c os => os = [] ∨ ∃ m : Nat, src[m]? = some c ∧ fss[m]? = some os) cs out ∧
        ∀ k, k < cs.length → use[pre.length + k]? = some true → ∀ m, mappedIndex (pre.length + k) (lookupOf dst src) 0 = some m → out[k]? = fss[m]? := by
  induction cs with
  | nil =>
    intro pre _ parts hr
    exact ⟨[], parts, rfl, hr, .nil, by simp⟩
  | cons c cs ih =>
    intro pre hpre parts hr
    have hc : dst[pre.length]? = some c := by rw [← hpre]; simp
    obtain ⟨os, p, h1, h2, h3, h4⟩ := loadClass_spec h hc parts hr
    obtain ⟨out, p', h5, h6, h7, h8⟩ := ih (pre ++ [c]) (by rw [← hpre]; simp) p h2
    rw [List.length_append, List.length_singleton] at h5 h8
    refine ⟨os :: out, p', ?_, h6, .cons h3 h7, ?_⟩
    · rw [List.length_cons, List.replicate_succ]
      unfold loadFunctions
      rw [h1]
      simp only
      rw [h5]
    · intro k hk hu m hm
      cases k with
      | zero =>
        rw [List.getElem?_cons_zero]
        exact (h4 hu m hm).symm
      | succ k =>
        rw [List.getElem?_cons_succ]
        have e : pre.length + 1 + k = pre.length + (k + 1) := by omega
        exact h8 k (by simpa using hk) (by rw [e]; exact hu) m (by rw [e]; exact hm)

/-- The functions of a stored class are found at the new position, unless they are hidden by a class that is not known. -/
theorem loaded_get {dst src : List Cls} {fss : List (List (Obj V))} {use : List Bool} (h : Tables dst src fss use) {out : List (List (Obj V))}
    (hout : ∀ k, k < dst.length → use[k]? = some true → ∀ m, mappedIndex k (lookupOf dst src) 0 = some m → out[k]? = fss[m]?)
    {i : Nat} {c : Cls} {fs : List (Obj V)} (hc : src[i]? = some c) (hf : fss[i]? = some fs) (h0 : fs ≠ [])
    (hhid : ∀ (k : Nat) d, k < i → src[k]? = some d → d ∉ dst → dst[0]? ≠ some c) :
    ∃ j, (lookupOf dst src)[i]? = some j ∧ dst[j]? = some c ∧ out[j]? = some fs := by
  have hin := h.known i c fs hc hf h0
  cases hfi : findId c.id dst 0 with
  | none => exact absurd hin ((findId_spec c dst 0).2 hfi)
  | some j =>
    obtain ⟨_, hj⟩ := (findId_spec c dst 0).1 j hfi
    rw [Nat.sub_zero] at hj
    have hjl : j < dst.length := (List.getElem?_eq_some_iff.mp hj).1
    have hli : (lookupOf dst src)[i]? = some j := by
      unfold lookupOf
      rw [List.getElem?_map, hc]
      simp [hfi]
    refine ⟨j, hli, hj, ?_⟩
    have hu := (h.used j hjl).mpr ⟨c, List.mem_of_getElem? hc, hfi⟩
    cases hm : mappedIndex j (lookupOf dst src) 0 with
    | none => exact absurd (List.mem_of_getElem? hli) ((mappedIndex_spec j _ 0).2 hm)
    | some m =>
      rw [hout j hjl hu m hm]
      obtain ⟨_, hl, hmin⟩ := (mappedIndex_spec j _ 0).1 m hm
      rw [Nat.sub_zero] at hl hmin
      obtain ⟨cm, hcm, hcp⟩ := Tables.lookup hl
      have hle : m ≤ i := by
        by_contra hlt
        exact hmin i (by omega) hli
      rcases Nat.lt_or_ge m i with hlt | hge
      · exfalso
        cases hfm : findId cm.id dst 0 with
        | none =>
          rw [hfm] at hcp
          simp only [Option.getD_none] at hcp
          rw [← hcp] at hj
          exact hhid m cm hlt hcm ((findId_spec cm dst 0).2 hfm) hj
        | some k =>
          rw [hfm] at hcp
          simp only [Option.getD_some] at hcp
          obtain ⟨_, hk⟩ := (findId_spec cm dst 0).1 k hfm
          rw [Nat.sub_zero, hcp, hj] at hk
          obtain rfl := Option.some.inj hk
          have hn := h.nodup
          have e1 : (src.map Cls.id)[m]? = some c.id := by rw [List.getElem?_map, hcm]; rfl
          have e2 : (src.map Cls.id)[i]? = some c.id := by rw [List.getElem?_map, hc]; rfl
          have := (List.getElem?_inj (List.getElem?_eq_some_iff.mp e1).1 hn).mp (e1.trans e2.symm)
          omega
      · have : m = i := by omega
        rw [this]
        exact hf

/-! ### the factors -/

theorem mapM_range_take {l : List Nat} {s n : Nat} (h : s + n ≤ l.length) :
    (List.range n).mapM (fun j => l[s + j]?) = some ((l.drop s).take n) := by
  induction n generalizing s with
  | zero => rfl
  | succ n ih =>
    rw [List.range_succ_eq_map, List.mapM_cons, List.mapM_map]
    have e : (fun j => l[s + j]?) ∘ Nat.succ = fun j => l[(s + 1) + j]? := by
      funext j
      simp only [Function.comp]
      congr 1
      omega
    have hs : s < l.length := by omega
    rw [e, ih (by omega), Nat.add_zero, List.getElem?_eq_getElem hs, List.drop_eq_getElem_cons hs]
    rfl

/-- The variables of a factor. -/
def scopeIn (vis : List Nat) (f : FactorRec) : List Nat := (vis.drop f.visStart).take f.visSize

/-- The dataset of some factors. -/
def encode (vis : List Nat) (fs : List FactorRec) : List Nat :=
  (fs.map (fun f => f.functionIndex :: f.functionType :: f.visSize :: scopeIn vis f)).flatten

theorem factorEntries_spec (vis : List Nat) (fs : List FactorRec) (h : ∀ f ∈ fs, f.visStart + f.visSize ≤ vis.length) :
    factorEntries vis fs = some (encode vis fs) := by
  induction fs with
  | nil => rfl
  | cons f fs ih =>
    unfold factorEntries
    rw [mapM_range_take (h f (by simp)), ih (fun g hg => h g (by simp [hg]))]
    simp [encode, scopeIn]

/-- The loaded factors: the same functions and variables, with the functions at new positions and the variables one after the other. -/
def relocate (lookup : List Nat) : Nat → List FactorRec → List FactorRec
  | _, [] => []
  | s, f :: fs => ⟨f.functionIndex, (lookup[f.functionType]?).getD 0, s, f.visSize⟩ :: relocate lookup (s + f.visSize) fs

theorem loadFactors_spec (vis lookup : List Nat) (fs : List FactorRec) (h : ∀ f ∈ fs, f.visStart + f.visSize ≤ vis.length ∧ f.functionType < lookup.length) :
    ∀ (pre vis' : List Nat) (order : Nat), loadFactors (pre ++ encode vis fs) lookup fs.length pre.length vis' order =
      some (relocate lookup vis'.length fs, vis' ++ (fs.map (scopeIn vis)).flatten, (fs.map (fun f => f.visSize)).foldl max order) := by
  induction fs with
  | nil => intro pre vis' order; simp [loadFactors, relocate]
  | cons f fs ih =>
    intro pre vis' order
    obtain ⟨hb, ht⟩ := h f (by simp)
    have hsl : (scopeIn vis f).length = f.visSize := by
      unfold scopeIn
      rw [List.length_take, List.length_drop]
      omega
    have he : encode vis (f :: fs) = f.functionIndex :: f.functionType :: f.visSize :: (scopeIn vis f ++ encode vis fs) := by simp [encode]
    rw [List.length_cons]
    unfold loadFactors
    rw [he]
    have g0 : (pre ++ f.functionIndex :: f.functionType :: f.visSize :: (scopeIn vis f ++ encode vis fs))[pre.length]? = some f.functionIndex := by simp
    have g1 : (pre ++ f.functionIndex :: f.functionType :: f.visSize :: (scopeIn vis f ++ encode vis fs))[pre.length + 1]? = some f.functionType := by
      rw [List.getElem?_append_right (by omega)]
      simp
    have g2 : (pre ++ f.functionIndex :: f.functionType :: f.visSize :: (scopeIn vis f ++ encode vis fs))[pre.length + 2]? = some f.visSize := by
      rw [List.getElem?_append_right (by omega)]
      simp
    rw [g0, g1, g2]
    simp only
    rw [mapM_range_take (by simp only [List.length_append, List.length_cons, hsl]; omega), List.getElem?_eq_getElem ht]
    simp only
    have hd : ((pre ++ f.functionIndex :: f.functionType :: f.visSize :: (scopeIn vis f ++ encode vis fs)).drop (pre.length + 3)).take f.visSize = scopeIn vis f := by
      rw [List.drop_append, List.drop_eq_nil_of_le (by omega), List.nil_append]
      have : pre.length + 3 - pre.length = 3 := by omega
      rw [this]
      simp [← hsl]
    rw [hd]
    have e : pre ++ f.functionIndex :: f.functionType :: f.visSize :: (scopeIn vis f ++ encode vis fs) =
        (pre ++ f.functionIndex :: f.functionType :: f.visSize :: scopeIn vis f) ++ encode vis fs := by simp
    have := ih (fun g hg => h g (by simp [hg])) (pre ++ f.functionIndex :: f.functionType :: f.visSize :: scopeIn vis f) (vis' ++ scopeIn vis f) (max order f.visSize)
    rw [← e] at this
    have el : (pre ++ f.functionIndex :: f.functionType :: f.visSize :: scopeIn vis f).length = pre.length + 3 + f.visSize := by
      simp only [List.length_append, List.length_cons, hsl]
      omega
    rw [el] at this
    rw [this]
    simp [relocate, hsl, List.getElem?_eq_getElem ht]

/-- Adjacent factors: the loop is that of `finalize`. -/
theorem finalizeFactor_eq (gm : GM V) (f : FactorRec) (i : Nat) : ∀ (k s : Nat) (adj : List (List Nat)),
    (List.range' s k).foldlM (insertFactor gm.factorsVis f i) adj = GM.finalizeFactor gm f i s k adj := by
  intro k
  induction k with
  | zero => intro s adj; rfl
  | succ k ih =>
    intro s adj
    rw [List.range'_succ, List.foldlM_cons]
    unfold GM.finalizeFactor GM.visAt insertFactor
    cases hv : gm.factorsVis[f.visStart + s]? with
    | none => rfl
    | some v =>
      simp only
      cases ha : adj[v]? with
      | none => rfl
      | some t =>
        simp only
        rw [setAt_of_lt _ (List.getElem?_eq_some_iff.mp ha).1]
        exact ih (s + 1) _

theorem adjacencyLoop_eq (gm : GM V) (fs : List FactorRec) (i : Nat) (adj : List (List Nat)) :
    adjacencyLoop gm.factorsVis fs i adj = GM.finalizeLoop gm fs i adj := by
  induction fs generalizing i adj with
  | nil => rfl
  | cons f fs ih =>
    unfold adjacencyLoop GM.finalizeLoop
    rw [List.range_eq_range', finalizeFactor_eq gm f i f.visSize 0 adj]
    cases GM.finalizeFactor gm f i 0 f.visSize adj with
    | none => rfl
    | some adj' => exact ih (i + 1) adj'

theorem relocate_length (lookup : List Nat) (fs : List FactorRec) (s : Nat) : (relocate lookup s fs).length = fs.length := by
  induction fs generalizing s with
  | nil => rfl
  | cons f fs ih => simp [relocate, ih]

/-- The loaded factors have the same variables. -/
theorem relocate_forall (vis lookup : List Nat) (fs : List FactorRec) (h : ∀ f ∈ fs, f.visStart + f.visSize ≤ vis.length) : ∀ (pre : List Nat),
    List.Forall₂ (fun f f' => f'.functionIndex = f.functionIndex ∧ f'.functionType = (lookup[f.functionType]?).getD 0 ∧
      f'.visStart + f'.visSize ≤ (pre ++ (fs.map (scopeIn vis)).flatten).length ∧ scopeIn (pre ++ (fs.map (scopeIn vis)).flatten) f' = scopeIn vis f)
      fs (relocate lookup pre.length fs) := by
  induction fs with
  | nil => intro pre; exact .nil
  | cons f fs ih =>
    intro pre
    have hsl : (scopeIn vis f).length = f.visSize := by
      have := h f (by simp)
      unfold scopeIn
      rw [List.length_take, List.length_drop]
      omega
    have hpre : pre ++ ((f :: fs).map (scopeIn vis)).flatten = (pre ++ scopeIn vis f) ++ (fs.map (scopeIn vis)).flatten := by simp
    rw [hpre]
    unfold relocate
    refine .cons ⟨rfl, rfl, ?_, ?_⟩ ?_
    · simp only [List.length_append, hsl]
      omega
    · unfold scopeIn
      simp only
      rw [List.append_assoc, List.drop_left, List.take_append_of_le_length (by rw [← hsl]; simp [scopeIn])]
      have : f.visSize = ((vis.drop f.visStart).take f.visSize).length := hsl.symm
      rw [List.take_of_length_le (by rw [← this])]
    · have := ih (fun g hg => h g (by simp [hg])) (pre ++ scopeIn vis f)
      have e : (pre ++ scopeIn vis f).length = pre.length + f.visSize := by rw [List.length_append, hsl]
      rw [e] at this
      exact this

end OpenGM.Hdf5
