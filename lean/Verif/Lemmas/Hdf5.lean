import Verif.Model.Hdf5
import Verif.Props.Serialization
import Verif.Lemmas.Built
/-
Lemmas on saving and loading models.
-/
namespace OpenGM.Hdf5
open Spec Functions Marray Partitions
variable {V : Type} [CommRing V] [LinearOrder V] 

/-! ### one function -/

/-- Writing and reading the object gives it back. -/
def Ok (o : Obj V) : Prop :=
  ∃ ix vs, o.serialize = some (ix, vs) ∧ o.sizes = (ix.length, vs.length) ∧
    ∀ rest rest' parts, Reachable PottsG.width parts →
      ∃ parts', Reachable PottsG.width parts' ∧ o.cls.deserialize (ix ++ rest) (vs ++ rest') parts = .ok o parts'

theorem ok_of_roundTrips {F : Type} {sizes : F → Nat × Nat} {ser : F → Option (List Nat × List V)} {deser : List Nat → List V → Option F} {f : F}
    (h : RoundTrips sizes ser deser f) (mk : F → Obj V) (h1 : (mk f).sizes = sizes f) (h2 : (mk f).serialize = ser f)
    (h3 : ∀ ix vs parts, (mk f).cls.deserialize ix vs parts = plain mk parts (deser ix vs)) : Ok (mk f) := by
  obtain ⟨ix, vs, e1, e2, e3⟩ := h
  refine ⟨ix, vs, by rw [h2, e1], by rw [h1, e2], ?_⟩
  intro rest rest' parts hp
  exact ⟨parts, hp, by rw [h3, e3]; rfl⟩

theorem ok_pottsG {shape : List Nat} {parts : List Nat} {f : PottsG V} {g : List Nat → V} (hN : shape.length ≤ 11)
    (hf : PottsG.Built 0 shape PottsG.idx parts f g) : Ok (.pottsG f) := by
  obtain ⟨b, hb⟩ := PottsG.bell_some hN
  have h := hf.holds hN hb
  refine ⟨_, _, rfl, rfl, ?_⟩
  intro rest rest' parts' hr
  obtain ⟨f0, p, h1, h2⟩ := PottsG.make_holds (0 : V) hN hb hr
  refine ⟨p, h2.reach, ?_⟩
  show (match PottsG.deserialize 0 ((f.shape.length :: f.shape) ++ rest) (f.values ++ rest') parts' with
    | .ok f p => Outcome.ok (Obj.pottsG f) p
    | .throw p => .throw p
    | .ub => .ub) = _
  have : PottsG.deserialize 0 ((f.shape.length :: f.shape) ++ rest) (f.values ++ rest') parts' = .ok f p := by
    simp only [List.cons_append, PottsG.deserialize, PottsG.bellNumber]
    rw [readShape_append, h.shape_eq, hb]
    simp only
    rw [if_pos (show b ≤ (f.values ++ rest').length by simp [h.len])]
    have ht : (f.values ++ rest').take b = f.values := by rw [← h.len]; simp
    rw [ht]
    unfold PottsG.makeValues
    rw [h1]
    simp only
    rw [if_pos (by rw [h2.len, h.len])]
    have ht2 : f.values.take f0.values.length = f.values := by
      rw [h2.len, ← h.len]
      simp
    rw [ht2]
    have : f0.size = f.size := by rw [h2.size, h.size]
    rcases f with ⟨a, b', c⟩
    simp only at this h
    have hs := h.shape_eq
    simp only at hs
    rw [this, hs]
  rw [this]

/-! ### the functions of one class -/

/-- The index sequences of some functions, one after the other. -/
def indices (fs : List (Obj V)) : List Nat := (fs.map (fun o => ((o.serialize.map Prod.fst).getD []))).flatten
/-- The value sequences of some functions, one after the other. -/
def values (fs : List (Obj V)) : List V := (fs.map (fun o => ((o.serialize.map Prod.snd).getD []))).flatten

theorem writeAt_spec {α : Type} (l a b : List α) (h : l.length ≤ b.length) : writeAt (a ++ b) a.length l = some (a ++ l ++ b.drop l.length) := by
  induction l generalizing a b with
  | nil => simp [writeAt]
  | cons x l ih =>
    cases b with
    | nil => simp at h
    | cons y b =>
      unfold writeAt
      rw [setAt_of_lt x (by simp)]
      simp only
      have e : (a ++ y :: b).set a.length x = (a ++ [x]) ++ b := by simp
      rw [e]
      have := ih (a ++ [x]) b (by simp at h; omega)
      rw [List.length_append, List.length_singleton] at this
      rw [this]
      simp

theorem serializeLoop_spec (fs : List (Obj V)) (h : ∀ o ∈ fs, Ok o) (a : List Nat) (b : List V) :
    serializeLoop fs a.length b.length (a ++ List.replicate (totalSizes fs).1 0) (b ++ List.replicate (totalSizes fs).2 0) =
      some (a ++ indices fs, b ++ values fs) := by
  induction fs generalizing a b with
  | nil => simp [serializeLoop, totalSizes, indices, values]
  | cons o os ih =>
    obtain ⟨ix, vs, h1, h2, _⟩ := h o (by simp)
    unfold serializeLoop
    rw [h1]
    simp only
    have hs1 : (totalSizes (o :: os)).1 = ix.length + (totalSizes os).1 := by simp [totalSizes, h2]
    have hs2 : (totalSizes (o :: os)).2 = vs.length + (totalSizes os).2 := by simp [totalSizes, h2]
    rw [writeAt_spec ix a _ (by simp [hs1]), writeAt_spec vs b _ (by simp [hs2])]
    simp only
    have e1 : (List.replicate (totalSizes (o :: os)).1 (0 : Nat)).drop ix.length = List.replicate (totalSizes os).1 0 := by simp [hs1]
    have e2 : (List.replicate (totalSizes (o :: os)).2 (0 : V)).drop vs.length = List.replicate (totalSizes os).2 0 := by simp [hs2]
    rw [e1, e2, h2]
    have := ih (fun o ho => h o (by simp [ho])) (a ++ ix) (b ++ vs)
    rw [List.length_append, List.length_append] at this
    simp only
    rw [this]
    simp [indices, values, h1]

theorem deserializeLoop_spec (c : Cls) (fs : List (Obj V)) (h : ∀ o ∈ fs, Ok o ∧ o.cls = c) (a : List Nat) (b : List V) (parts : List Nat)
    (hr : Reachable PottsG.width parts) :
    ∃ parts', Reachable PottsG.width parts' ∧
      deserializeLoop c (a ++ indices fs) (b ++ values fs) fs.length a.length b.length parts = .ok fs parts' := by
  induction fs generalizing a b parts with
  | nil => exact ⟨parts, hr, rfl⟩
  | cons o os ih =>
    obtain ⟨⟨ix, vs, h1, h2, h3⟩, hc⟩ := h o (by simp)
    have ei : indices (o :: os) = ix ++ indices os := by simp [indices, h1]
    have ev : values (o :: os) = vs ++ values os := by simp [values, h1]
    obtain ⟨p1, hp1, e1⟩ := h3 (indices os) (values os) parts hr
    obtain ⟨p2, hp2, e2⟩ := ih (fun o ho => h o (by simp [ho])) (a ++ ix) (b ++ vs) p1 hp1
    refine ⟨p2, hp2, ?_⟩
    rw [List.length_cons]
    unfold deserializeLoop
    rw [ei, ev]
    simp only [List.drop_left]
    rw [hc] at e1
    rw [e1]
    simp only
    rw [h2]
    simp only [List.length_append, List.append_assoc] at e2
    rw [e2]

theorem indices_ne_nil {fs : List (Obj V)} {o : Obj V} (ho : o ∈ fs) (h : Ok o) (hs : 0 < o.sizes.1) : indices fs ≠ [] := by
  obtain ⟨ix, vs, h1, h2, _⟩ := h
  intro he
  unfold indices at he
  rw [List.flatten_eq_nil_iff] at he
  have := he _ (List.mem_map.mpr ⟨o, ho, rfl⟩)
  rw [h1] at this
  simp only [Option.map_some, Option.getD_some] at this
  rw [h2, this] at hs
  simp at hs

theorem values_ne_nil {fs : List (Obj V)} {o : Obj V} (ho : o ∈ fs) (h : Ok o) (hs : 0 < o.sizes.2) : values fs ≠ [] := by
  obtain ⟨ix, vs, h1, h2, _⟩ := h
  intro he
  unfold values at he
  rw [List.flatten_eq_nil_iff] at he
  have := he _ (List.mem_map.mpr ⟨o, ho, rfl⟩)
  rw [h1] at this
  simp only [Option.map_some, Option.getD_some] at this
  rw [h2, this] at hs
  simp at hs

/-! ### the functions of all classes -/

/-- The list of functions can be saved. -/
def Saves (c : Cls) (fs : List (Obj V)) : Prop := (∀ o ∈ fs, Ok o ∧ o.cls = c) ∧ (fs ≠ [] → indices fs ≠ [] ∧ values fs ≠ [])

/-- The groups that are written. -/
def groupsOf : List Cls → List (List (Obj V)) → List (Nat × List Nat × List V)
  | c :: cs, fs :: rest => if fs = [] then groupsOf cs rest else (c.id, indices fs, values fs) :: groupsOf cs rest
  | _, _ => []

theorem groupsOf_ids {cs : List Cls} {fss : List (List (Obj V))} {k : Nat} (h : k ∈ (groupsOf cs fss).map Prod.fst) : k ∈ cs.map Cls.id := by
  induction cs generalizing fss with
  | nil => simp [groupsOf] at h
  | cons c cs ih =>
    cases fss with
    | nil => simp [groupsOf] at h
    | cons fs fss =>
      unfold groupsOf at h
      split at h
      · simp only [List.map_cons, List.mem_cons]
        exact Or.inr (ih h)
      · simp only [List.map_cons, List.mem_cons] at h ⊢
        rcases h with h | h
        · exact Or.inl h
        · exact Or.inr (ih h)

theorem saveFunctions_spec {cs : List Cls} {fss : List (List (Obj V))} (h : List.Forall₂ Saves cs fss) (groups : List (Nat × List Nat × List V))
    (hn : (groups.map Prod.fst ++ cs.map Cls.id).Nodup) : saveFunctions cs fss groups = .ok (groups ++ groupsOf cs fss) () := by
  induction h generalizing groups with
  | nil => simp [saveFunctions, groupsOf]
  | @cons c fs cs fss hs h ih =>
    unfold saveFunctions groupsOf
    by_cases h0 : fs = []
    · rw [if_pos h0, if_pos h0]
      refine ih groups ?_
      refine hn.sublist ?_
      exact List.Sublist.append_left (by simp) _
    · rw [if_neg h0, if_neg h0]
      have hni : c.id ∉ groups.map Prod.fst := by
        intro hm
        rw [List.nodup_append] at hn
        exact hn.2.2 _ hm _ (by simp) rfl
      rw [if_neg hni]
      have := serializeLoop_spec fs (fun o ho => (hs.1 o ho).1) [] []
      simp only [List.length_nil, List.nil_append] at this
      simp only
      rw [this]
      simp only [saveVector]
      rw [if_neg (hs.2 h0).1, if_neg (hs.2 h0).2]
      simp only
      rw [ih (groups ++ [(c.id, indices fs, values fs)]) (by simpa using hn)]
      simp

theorem openGroup_spec {cs : List Cls} {fss : List (List (Obj V))} (hn : (cs.map Cls.id).Nodup) {i : Nat} {c : Cls} {fs : List (Obj V)}
    (hc : cs[i]? = some c) (hf : fss[i]? = some fs) (h0 : fs ≠ []) : openGroup c.id (groupsOf cs fss) = some (indices fs, values fs) := by
  induction cs generalizing fss i with
  | nil => simp at hc
  | cons c' cs ih =>
    cases fss with
    | nil => simp at hf
    | cons fs' fss =>
      unfold groupsOf
      rw [List.map_cons, List.nodup_cons] at hn
      cases i with
      | zero =>
        simp only [List.getElem?_cons_zero, Option.some.injEq] at hc hf
        subst hc hf
        rw [if_neg h0]
        simp [openGroup]
      | succ i =>
        simp only [List.getElem?_cons_succ] at hc hf
        have hne : c'.id ≠ c.id := by
          intro e
          apply hn.1
          rw [e]
          exact List.mem_map.mpr ⟨c, List.mem_of_getElem? hc, rfl⟩
        have := ih hn.2 hc hf
        split
        · exact this
        · unfold openGroup
          rw [if_neg hne]
          exact this

/-! ### the header -/

/-- The entries of the header. -/
def entriesOf (cs : List Cls) (fss : List (List (Obj V))) : List (Nat × Nat) := List.zipWith (fun c fs => (c.id, fs.length)) cs fss

theorem headerEntries_spec {cs : List Cls} {fss : List (List (Obj V))} (h : cs.length = fss.length) :
    headerEntries cs fss = some ((entriesOf cs fss).map (fun e => [e.1, e.2])).flatten := by
  induction cs generalizing fss with
  | nil => simp [headerEntries, entriesOf]
  | cons c cs ih =>
    cases fss with
    | nil => simp at h
    | cons fs fss =>
      unfold headerEntries
      rw [ih (by simpa using h)]
      simp [entriesOf]

theorem pairs_length (l : List (Nat × Nat)) : (l.map (fun e => [e.1, e.2])).flatten.length = 2 * l.length := by
  induction l with
  | nil => rfl
  | cons e l ih =>
    simp only [List.map_cons, List.flatten_cons, List.length_append, ih, List.length_cons, List.length_nil]
    omega

theorem readEntries_spec (pre : List Nat) (hp : pre.length = 5) (es : List (Nat × Nat)) (post : List Nat) : ∀ (done : List (Nat × Nat)),
    readEntries (pre ++ ((done ++ es).map (fun e => [e.1, e.2])).flatten ++ post) done.length es.length = some es := by
  induction es with
  | nil => intro done; rfl
  | cons e es ih =>
    intro done
    have hl := pairs_length done
    have h1 : (pre ++ ((done ++ e :: es).map (fun e => [e.1, e.2])).flatten ++ post)[5 + 2 * done.length]? = some e.1 := by
      rw [List.append_assoc, List.getElem?_append_right (by omega)]
      rw [List.map_append, List.flatten_append, List.append_assoc, List.getElem?_append_right (by omega)]
      have : 5 + 2 * done.length - pre.length - (done.map (fun e => [e.1, e.2])).flatten.length = 0 := by omega
      rw [this]
      simp
    have h2 : (pre ++ ((done ++ e :: es).map (fun e => [e.1, e.2])).flatten ++ post)[5 + 2 * done.length + 1]? = some e.2 := by
      rw [List.append_assoc, List.getElem?_append_right (by omega)]
      rw [List.map_append, List.flatten_append, List.append_assoc, List.getElem?_append_right (by omega)]
      have : 5 + 2 * done.length + 1 - pre.length - (done.map (fun e => [e.1, e.2])).flatten.length = 1 := by omega
      rw [this]
      simp
    rw [List.length_cons]
    unfold readEntries
    rw [h1, h2]
    have := ih (done ++ [e])
    rw [show done ++ [e] ++ es = done ++ e :: es by simp, List.length_append, List.length_singleton] at this
    rw [this]

/-! ### the tables -/

theorem Cls.id_inj {a b : Cls} (h : a.id = b.id) : a = b := by cases a <;> cases b <;> simp_all [Cls.id]

theorem findId_spec (c : Cls) (types : List Cls) (j : Nat) :
    (∀ k, findId c.id types j = some k → j ≤ k ∧ types[k - j]? = some c) ∧ (findId c.id types j = none → c ∉ types) := by
  induction types generalizing j with
  | nil => exact ⟨by simp [findId], by simp⟩
  | cons d types ih =>
    unfold findId
    by_cases h : c.id = d.id
    · rw [if_pos h]
      refine ⟨?_, by simp⟩
      intro k hk
      obtain rfl := Option.some.inj hk
      exact ⟨le_refl _, by simp [Cls.id_inj h]⟩
    · rw [if_neg h]
      refine ⟨?_, ?_⟩
      · intro k hk
        obtain ⟨h1, h2⟩ := (ih (j + 1)).1 k hk
        refine ⟨by omega, ?_⟩
        have : k - j = (k - (j + 1)) + 1 := by omega
        rw [this, List.getElem?_cons_succ]
        exact h2
      · intro hk hm
        rcases List.mem_cons.mp hm with e | hm
        · exact h (by rw [e])
        · exact (ih (j + 1)).2 hk hm

/-- The table of positions. -/
def lookupOf (types src : List Cls) : List Nat := src.map (fun c => (findId c.id types 0).getD 0)

theorem lookupLoop_spec (types : List Cls) {src : List Cls} {fss : List (List (Obj V))} (hl : src.length = fss.length)
    (hin : ∀ (i : Nat) c fs, src[i]? = some c → fss[i]? = some fs → fs ≠ [] → c ∈ types) (use : List Bool) (hu : use.length = types.length) :
    ∃ use', lookupLoop types (entriesOf src fss) use = .ok (lookupOf types src, use') () ∧ use'.length = types.length ∧
      ∀ j, j < types.length → (use'[j]? = some true ↔ use[j]? = some true ∨ ∃ c ∈ src, findId c.id types 0 = some j) := by
  induction src generalizing fss use with
  | nil => exact ⟨use, rfl, hu, by simp⟩
  | cons c src ih =>
    cases fss with
    | nil => simp at hl
    | cons fs fss =>
      have hin' : ∀ (i : Nat) c fs, src[i]? = some c → fss[i]? = some fs → fs ≠ [] → c ∈ types := by
        intro i c' fs' h1 h2
        exact hin (i + 1) c' fs' (by simpa using h1) (by simpa using h2)
      show ∃ use', lookupLoop types ((c.id, fs.length) :: entriesOf src fss) use = _ ∧ _
      unfold lookupLoop
      cases hf : findId c.id types 0 with
      | none =>
        have hnot := (findId_spec c types 0).2 hf
        have h0 : fs = [] := by
          by_contra h0
          exact hnot (hin 0 c fs rfl rfl h0)
        subst h0
        obtain ⟨use', e1, e2, e3⟩ := ih (by simpa using hl) hin' use hu
        refine ⟨use', ?_, e2, ?_⟩
        · simp only [List.length_nil]
          rw [if_neg (by simp), e1]
          simp [lookupOf, hf]
        · intro j hj
          rw [e3 j hj]
          simp [hf]
      | some k =>
        obtain ⟨_, hk⟩ := (findId_spec c types 0).1 k hf
        have hk' : k < types.length := by
          have := (List.getElem?_eq_some_iff.mp hk).1
          omega
        simp only
        rw [setAt_of_lt true (by omega)]
        simp only
        obtain ⟨use', e1, e2, e3⟩ := ih (by simpa using hl) hin' (use.set k true) (by simpa using hu)
        refine ⟨use', ?_, e2, ?_⟩
        · rw [e1]
          simp [lookupOf, hf]
        · intro j hj
          rw [e3 j hj]
          by_cases e : k = j
          · subst e
            rw [List.getElem?_set_self (by omega)]
            simp [hf]
          · rw [List.getElem?_set_ne e]
            simp only [List.mem_cons, exists_eq_or_imp, hf, Option.some.injEq]
            tauto

theorem lookupLoop_throw (types : List Cls) {src : List Cls} {fss : List (List (Obj V))} (hl : src.length = fss.length)
    {i : Nat} {c : Cls} {fs : List (Obj V)} (hc : src[i]? = some c) (hf : fss[i]? = some fs) (h0 : fs ≠ []) (hnot : c ∉ types) (use : List Bool)
    (hu : use.length = types.length) : lookupLoop types (entriesOf src fss) use = .throw () := by
  induction src generalizing fss i use with
  | nil => simp at hc
  | cons c' src ih =>
    cases fss with
    | nil => simp at hl
    | cons fs' fss =>
      show lookupLoop types ((c'.id, fs'.length) :: entriesOf src fss) use = _
      unfold lookupLoop
      cases i with
      | zero =>
        simp only [List.getElem?_cons_zero, Option.some.injEq] at hc hf
        subst hc hf
        cases hfi : findId c'.id types 0 with
        | some k =>
          obtain ⟨_, hk⟩ := (findId_spec c' types 0).1 k hfi
          exact absurd (List.mem_of_getElem? hk) hnot
        | none =>
          simp only
          rw [if_pos (by simpa using h0)]
      | succ i =>
        simp only [List.getElem?_cons_succ] at hc hf
        cases hfi : findId c'.id types 0 with
        | some k =>
          obtain ⟨_, hk⟩ := (findId_spec c' types 0).1 k hfi
          have hk' : k < types.length := by
            have := (List.getElem?_eq_some_iff.mp hk).1
            omega
          simp only
          rw [setAt_of_lt true (by omega)]
          simp only
          rw [ih (by simpa using hl) hc hf _ (by simpa using hu)]
        | none =>
          simp only
          split
          · rfl
          · rw [ih (by simpa using hl) hc hf _ hu]

theorem mappedIndex_spec (ix : Nat) (l : List Nat) (i : Nat) :
    (∀ m, mappedIndex ix l i = some m → i ≤ m ∧ l[m - i]? = some ix ∧ ∀ k, k < m - i → l[k]? ≠ some ix) ∧ (mappedIndex ix l i = none → ix ∉ l) := by
  induction l generalizing i with
  | nil => exact ⟨by simp [mappedIndex], by simp⟩
  | cons j l ih =>
    unfold mappedIndex
    by_cases h : j = ix
    · rw [if_pos h]
      refine ⟨?_, by simp⟩
      intro m hm
      obtain rfl := Option.some.inj hm
      exact ⟨le_refl _, by simp [h], by intro k hk; omega⟩
    · rw [if_neg h]
      refine ⟨?_, ?_⟩
      · intro m hm
        obtain ⟨h1, h2, h3⟩ := (ih (i + 1)).1 m hm
        have e : m - i = (m - (i + 1)) + 1 := by omega
        refine ⟨by omega, by rw [e, List.getElem?_cons_succ]; exact h2, ?_⟩
        intro k hk
        cases k with
        | zero => simpa using h
        | succ k => exact h3 k (by omega)
      · intro hn hm
        rcases List.mem_cons.mp hm with e | hm
        · exact h e.symm
        · exact (ih (i + 1)).2 hn hm

end OpenGM.Hdf5
