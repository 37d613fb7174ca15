import Verif.Model.ExplicitModel
import Verif.Lemmas.FactorFix
import Verif.Lemmas.Built
/-
ExplicitStorage and ConvertToExplicit.
-/
namespace OpenGM
namespace ExplicitModel
open Spec Marray Walkers FactorOps
variable {V : Type}

theorem fnSize_eq (f : Fn V) : fnSize f = f.shape.prod := by
  unfold fnSize
  exact Geometry.foldl_mul_prod _

/-- The values of a function in the order of the tuples. -/
def values (f : Fn V) : List V := (allTuples f.shape).map f.table

theorem length_values (f : Fn V) : (values f).length = fnSize f := by
  rw [values, List.length_map, length_allTuples, fnSize_eq]

theorem callFn_eq {f : Fn V} (hne : f.shape ≠ []) {c : List Nat} (hc : InShape f.shape c) : callFn f c = some (f.table c) := by
  unfold callFn
  cases hs : f.shape with
  | nil => exact absurd hs hne
  | cons n s =>
    simp only [← hs]
    have := inShape_of_InShape f.shape c [] hc
    rw [List.append_nil] at this
    rw [this, if_pos rfl, ← InShape_length _ _ hc, List.take_length]

theorem prod_zero : ∀ {l : List Nat}, 0 ∈ l → l.prod = 0
  | n :: l, h => by
    rcases List.mem_cons.mp h with rfl | h
    · simp
    · simp [prod_zero h]

/-- The walker visits all tuples, whatever the shape. -/
theorem visits_shape (shape : List Nat) : Visits (shapeWalkerNext shape) (shapeWalkerInit shape) (allTuples shape) := by
  by_cases hp : Positive shape
  · exact visits_shapeWalker hp
  · have : allTuples shape = [] := by
      apply List.eq_nil_of_length_eq_zero
      rw [length_allTuples]
      unfold Positive at hp
      push Not at hp
      obtain ⟨n, hn, h0⟩ := hp
      have : n = 0 := by omega
      subst this
      exact prod_zero hn
    rw [this]
    trivial

/-! ### the storage -/

theorem storeValues_spec (f : Fn V) (hne : f.shape ≠ []) (off : Nat) (R : Nat) : ∀ (l : List (List Nat)) (c : List Nat) (i : Nat) (pre : List (Option V)),
    Visits (shapeWalkerNext f.shape) c l → (∀ t ∈ l, InShape f.shape t) → off + i = pre.length →
    storeValues f off i l.length c (pre ++ List.replicate (l.length + R) none) = some (pre ++ l.map (fun t => some (f.table t)) ++ List.replicate R none)
  | [], c, i, pre, _, _, _ => by simp [storeValues]
  | t :: l, _, i, pre, ⟨rfl, c', hc', hv⟩, hin, hoff => by
    rw [List.length_cons, storeValues, callFn_eq hne (hin _ (by simp))]
    simp only
    rw [setAt_of_lt _ (by simp; omega)]
    simp only
    rw [hc']
    simp only
    have e : (pre ++ List.replicate (l.length + 1 + R) none).set (off + i) (some (f.table t)) = (pre ++ [some (f.table t)]) ++ List.replicate (l.length + R) none := by
      rw [hoff, List.set_append_right (h := le_refl _), Nat.sub_self, show l.length + 1 + R = (l.length + R) + 1 by omega, List.replicate_succ, List.set_cons_zero]
      simp
    rw [show l.length + 1 + R = l.length + 1 + R from rfl, e, storeValues_spec f hne off R l c' (i + 1) _ hv (fun t ht => hin t (by simp [ht])) (by simp; omega)]
    simp

/-- State of the storage after the functions `done`, when there are `rest` functions left. -/
structure Inv (sizes typeStart : List Nat) (done rest : List (Fn V)) (s : Storage V) (off : Nat) : Prop where
  sizes : s.functionSize = sizes
  types : s.functionTypeStart = typeStart
  off : off = (done.map fnSize).sum
  starts : ∀ j, j < done.length → s.functionIndexToStart[j]? = some ((done.take j).map fnSize).sum
  startsLen : s.functionIndexToStart.length = done.length + rest.length
  data : s.data = (done.flatMap values).map some ++ List.replicate (rest.map fnSize).sum none

theorem length_flatMap_values (l : List (Fn V)) : (l.flatMap values).length = (l.map fnSize).sum := by
  induction l with
  | nil => rfl
  | cons f l ih => simp [length_values, ih]

theorem storeType_spec {sizes ts : List Nat} {ty b : Nat} (hb : ts[ty]? = some b) : ∀ (fs : List (Fn V)) (f : Nat) (done rest : List (Fn V)) (s : Storage V) (off : Nat),
    (∀ g ∈ fs, g.shape ≠ []) → b + f = done.length → Inv sizes ts done (fs ++ rest) s off →
    ∃ s' off', storeType ty f fs s off = some (s', off') ∧ Inv sizes ts (done ++ fs) rest s' off'
  | [], f, done, rest, s, off, _, _, h => ⟨s, off, rfl, by simpa using h⟩
  | fn :: fs, f, done, rest, s, off, hne, hbf, h => by
    rw [storeType]
    have h1 : s.fidToIndex ty f = some done.length := by
      unfold Storage.fidToIndex
      rw [h.types, hb, Option.map_some, hbf]
    rw [h1]
    simp only
    rw [setAt_of_lt _ (by rw [h.startsLen]; simp)]
    simp only
    have hd : s.data = (done.flatMap values).map some ++ List.replicate ((allTuples fn.shape).length + ((fs ++ rest).map fnSize).sum) none := by
      rw [h.data, length_allTuples, ← fnSize_eq]
      rfl
    have hst := storeValues_spec fn (hne _ (by simp)) off ((fs ++ rest).map fnSize).sum (allTuples fn.shape) (shapeWalkerInit fn.shape) 0 ((done.flatMap values).map some)
      (visits_shape _) (fun t ht => (mem_allTuples _ _).mp ht) (by rw [List.length_map, length_flatMap_values, h.off]; rfl)
    rw [← hd, length_allTuples, ← fnSize_eq] at hst
    rw [hst]
    simp only
    obtain ⟨s', off', e, hi⟩ := storeType_spec (sizes := sizes) hb fs (f + 1) (done ++ [fn]) rest
      { s with functionIndexToStart := s.functionIndexToStart.set done.length off,
               data := (done.flatMap values).map some ++ (allTuples fn.shape).map (fun t => some (fn.table t)) ++ List.replicate ((fs ++ rest).map fnSize).sum none }
      (off + fnSize fn) (fun g hg => hne g (by simp [hg])) (by simp; omega)
      { sizes := h.sizes
        types := h.types
        off := by simp [h.off]
        starts := by
          intro j hj
          simp only [List.length_append, List.length_singleton] at hj
          simp only
          rcases Nat.lt_or_ge j done.length with hlt | hge
          · rw [List.getElem?_set_ne (by omega), h.starts j hlt, List.take_append_of_le_length (by omega)]
          · have : j = done.length := by omega
            subst this
            rw [List.getElem?_set_self (by rw [h.startsLen]; simp), h.off]
            simp
        startsLen := by
          have := h.startsLen
          simp only [List.length_append, List.length_cons, List.length_set, List.length_nil] at this ⊢
          omega
        data := by simp [values, List.map_map, Function.comp_def] }
    exact ⟨s', off', e, by simpa using hi⟩

/-- The first indices of the function types. -/
def firstOf (all : List (List (Fn V))) (ty : Nat) : Nat := ((all.take ty).map List.length).sum

theorem storeAll_spec {sizes ts : List Nat} {all : List (List (Fn V))} (hts : ∀ ty, ty < all.length → ts[ty]? = some (firstOf all ty)) :
    ∀ (todo before : List (List (Fn V))) (s : Storage V) (off : Nat), all = before ++ todo → (∀ fs ∈ todo, ∀ g ∈ fs, g.shape ≠ []) →
    Inv sizes ts before.flatten todo.flatten s off →
    ∃ s' off', storeAll before.length todo s off = some (s', off') ∧ Inv sizes ts all.flatten [] s' off'
  | [], before, s, off, hall, _, h => ⟨s, off, rfl, by simpa [hall] using h⟩
  | fs :: todo, before, s, off, hall, hne, h => by
    rw [storeAll]
    have hty := hts before.length (by rw [hall]; simp)
    obtain ⟨s', off', e, hi⟩ := storeType_spec (sizes := sizes) hty fs 0 before.flatten todo.flatten s off (fun g hg => hne fs (by simp) g hg)
      (by rw [firstOf, hall, List.take_left']
          · rw [Nat.add_zero, List.length_flatten]
          · rfl)
      (by simpa using h)
    rw [e]
    simp only
    have := storeAll_spec (sizes := sizes) hts todo (before ++ [fs]) s' off' (by simp [hall]) (fun fs hfs => hne fs (by simp [hfs])) (by simpa using hi)
    simpa using this

theorem typeStart_eq (sizes : List Nat) : ∀ i, i ≤ sizes.length → typeStart sizes i = some (sizes.take i).sum
  | 0, _ => rfl
  | i + 1, h => by
    have ih := typeStart_eq sizes i (by omega)
    unfold typeStart at ih ⊢
    rw [List.range_succ, List.foldlM_append, ih]
    have hi : i < sizes.length := by omega
    have ht : (sizes.take (i + 1)).sum = (sizes.take i).sum + sizes[i] := by
      rw [List.take_succ_eq_append_getElem hi, List.sum_append, List.sum_singleton]
    rw [ht]
    simp [List.getElem?_eq_getElem hi]

theorem typeStarts_eq (sizes : List Nat) : ∀ is : List Nat, (∀ i ∈ is, i ≤ sizes.length) → typeStarts sizes is = some (is.map (fun i => (sizes.take i).sum))
  | [], _ => rfl
  | i :: is, h => by
    rw [typeStarts, typeStart_eq sizes i (h i (by simp)), typeStarts_eq sizes is (fun j hj => h j (by simp [hj]))]
    rfl

theorem neededStorage_eq : ∀ (l : List (List (Fn V))) (n : Nat), neededStorage l n = n + (l.flatten.map fnSize).sum
  | [], n => by simp [neededStorage]
  | fs :: l, n => by
    have : ∀ (fs : List (Fn V)) (n : Nat), fs.foldl (fun a f => a + fnSize f) n = n + (fs.map fnSize).sum := by
      intro fs
      induction fs with
      | nil => intro n; simp
      | cons f fs ih => intro n; simp [ih, Nat.add_assoc]
    rw [neededStorage, neededStorage_eq l, this]
    simp [Nat.add_assoc]

theorem make_spec {gm : GM V} (hne : ∀ fs ∈ gm.functions, ∀ g ∈ fs, g.shape ≠ []) :
    ∃ s off ts, Storage.make gm = some s ∧ Inv (gm.functions.map List.length) ts gm.functions.flatten [] s off ∧
      ∀ ty, ty < gm.functions.length → ts[ty]? = some (firstOf gm.functions ty) := by
  unfold Storage.make
  simp only
  rw [typeStarts_eq _ _ (by intro i hi; simp at hi ⊢; omega)]
  simp only
  have hts : ∀ ty, ty < gm.functions.length → (List.map (fun i => ((gm.functions.map List.length).take i).sum) (List.range gm.functions.length))[ty]? = some (firstOf gm.functions ty) := by
    intro ty hty
    rw [List.getElem?_map, List.getElem?_range hty, Option.map_some, firstOf, List.map_take]
  obtain ⟨s, off, e, hi⟩ := storeAll_spec (sizes := gm.functions.map List.length) hts gm.functions []
    ⟨gm.functions.map List.length, List.map (fun i => ((gm.functions.map List.length).take i).sum) (List.range gm.functions.length),
      List.replicate ((gm.functions.map List.length).foldl (· + ·) 0) 0, List.replicate (neededStorage gm.functions 0) none⟩ 0 (by simp) hne
    { sizes := rfl
      types := rfl
      off := by simp
      starts := by simp
      startsLen := by simp [List.length_flatten, List.sum_eq_foldl]
      data := by simp [neededStorage_eq] }
  simp only [List.length_nil] at e
  rw [e]
  exact ⟨s, off, _, rfl, hi, hts⟩

theorem flatten_getElem? {α : Type} : ∀ (all : List (List α)) (ty i : Nat) (fs : List α) (x : α), all[ty]? = some fs → fs[i]? = some x →
    all.flatten[((all.take ty).map List.length).sum + i]? = some x
  | [], ty, i, fs, x, h, _ => by simp at h
  | f :: all, 0, i, fs, x, h, hx => by
    simp only [List.getElem?_cons_zero, Option.some.injEq] at h
    subst h
    have hi := (List.getElem?_eq_some_iff.mp hx).1
    simp only [List.take_zero, List.map_nil, List.sum_nil, Nat.zero_add, List.flatten_cons]
    rw [List.getElem?_append_left hi, hx]
  | f :: all, ty + 1, i, fs, x, h, hx => by
    simp only [List.getElem?_cons_succ] at h
    have ih := flatten_getElem? all ty i fs x h hx
    simp only [List.take_succ_cons, List.map_cons, List.sum_cons, List.flatten_cons]
    rw [List.getElem?_append_right (by omega), show f.length + ((all.take ty).map List.length).sum + i - f.length = ((all.take ty).map List.length).sum + i by omega, ih]

theorem flatMap_values_getElem? : ∀ (l : List (Fn V)) (j k : Nat) (g : Fn V) (x : V), l[j]? = some g → (values g)[k]? = some x →
    (l.flatMap values)[((l.take j).map fnSize).sum + k]? = some x
  | [], j, k, g, x, h, _ => by simp at h
  | f :: l, 0, k, g, x, h, hx => by
    simp only [List.getElem?_cons_zero, Option.some.injEq] at h
    subst h
    have hi := (List.getElem?_eq_some_iff.mp hx).1
    simp only [List.take_zero, List.map_nil, List.sum_nil, Nat.zero_add, List.flatMap_cons]
    rw [List.getElem?_append_left hi, hx]
  | f :: l, j + 1, k, g, x, h, hx => by
    simp only [List.getElem?_cons_succ] at h
    have ih := flatMap_values_getElem? l j k g x h hx
    have hl := length_values f
    simp only [List.take_succ_cons, List.map_cons, List.sum_cons, List.flatMap_cons]
    rw [List.getElem?_append_right (by omega), show fnSize f + ((l.take j).map fnSize).sum + k - (values f).length = ((l.take j).map fnSize).sum + k by omega, ih]

/-- Reading the values of a function. -/
theorem read_spec {gm : GM V} {s : Storage V} {off : Nat} {ts : List Nat} (h : Inv (gm.functions.map List.length) ts gm.functions.flatten [] s off)
    (hts : ∀ ty, ty < gm.functions.length → ts[ty]? = some (firstOf gm.functions ty)) {f : FactorRec} {g : Fn V}
    (hg : gm.getFunction ⟨f.functionIndex, f.functionType⟩ = some g) {k : Nat} {c : List Nat} (hk : (allTuples g.shape)[k]? = some c) :
    s.read f k = some (g.table c) := by
  unfold GM.getFunction at hg
  rw [Option.bind_eq_some_iff] at hg
  obtain ⟨fs, h1, h2⟩ := hg
  simp only at h1 h2
  have hty := (List.getElem?_eq_some_iff.mp h1).1
  have hpos := flatten_getElem? gm.functions f.functionType f.functionIndex fs g h1 h2
  have hval : (values g)[k]? = some (g.table c) := by rw [values, List.getElem?_map, hk]; rfl
  have hdata := flatMap_values_getElem? gm.functions.flatten _ k g _ hpos hval
  unfold Storage.read Storage.start Storage.fidToIndex
  rw [h.types, hts _ hty, Option.map_some, Option.bind_some, firstOf, h.starts _ (List.getElem?_eq_some_iff.mp hpos).1]
  simp only
  have hlt := (List.getElem?_eq_some_iff.mp hdata).1
  rw [h.data, List.getElem?_append_left (by simpa using hlt), List.getElem?_map, hdata]
  rfl

/-! ### the conversion -/

/-- The new function has the shape and the values of the old one. -/
theorem explicitTable_spec (zero : V) {f : Fn V} (hne : f.shape ≠ []) :
    ∃ g, (explicitTable zero f).bind (arrFn zero) = some g ∧ g.shape = f.shape ∧ ∀ c, InShape f.shape c → g.table c = f.table c := by
  have hlen : (allTuples f.shape).length = fnSize f := by rw [length_allTuples, fnSize_eq]
  have hvc := visits_counter (shapeWalkerNext f.shape) _ (shapeWalkerInit f.shape) 0 (visits_shape f.shape)
  obtain ⟨a, h1, h2, h3⟩ := walkLoop_spec (V := V) (shape := f.shape) (o := defaultOrder) _ (fun s : Nat × List Nat => s.2) (fun s => f.table s.2)
    (fun s a => assignIndex id a s.1 (callFn f s.2)) (n := fnSize f) (c0 := Arr.make f.shape zero defaultOrder) (by simp [hlen])
    (Arr.make_spec f.shape zero defaultOrder).1 hvc (by
      rw [List.map_snd_zip (by simp)]) (by
      intro s hs c hc _
      obtain ⟨k, hk, hsk⟩ := List.getElem_of_mem hs
      simp only [List.length_zip, List.length_range', Nat.min_self] at hk
      rw [List.getElem_zip] at hsk
      subst hsk
      have hin : InShape f.shape (allTuples f.shape)[k] := (mem_allTuples _ _).mp (List.getElem_mem hk)
      simp only [List.getElem_range', Nat.zero_add, Nat.one_mul]
      rw [callFn_eq hne hin]
      exact setIndex_eq hc (List.getElem?_eq_getElem hk) _)
  have hget : ∀ c, InShape f.shape c → a.get c = some (f.table c) := by
    intro c hc
    obtain ⟨k, hk, hck⟩ := List.getElem_of_mem ((mem_allTuples _ _).mpr hc)
    have hz : k < ((List.range' 0 (allTuples f.shape).length).zip (allTuples f.shape)).length := by simpa using hk
    have := h3 _ (List.getElem_mem hz)
    rw [List.getElem_zip] at this
    simp only [hck] at this
    exact this
  have hsh : a.geometry.shape = f.shape := by
    obtain ⟨hg, _⟩ := h2
    rw [hg, Geometry.dense_shape]
  unfold explicitTable
  rw [h1, Option.bind_some, arrFn, hsh]
  have hall : (allTuples f.shape).all (fun c => (a.get c).isSome) = true := by
    rw [List.all_eq_true]
    intro c hc
    rw [hget c ((mem_allTuples _ _).mp hc)]
    rfl
  rw [if_pos hall]
  refine ⟨_, rfl, rfl, ?_⟩
  intro c hc
  simp only
  rw [hget c hc]

theorem incomparable_iff (a b : FunctionIdentifier) : (!(a.lt b) && !(b.lt a)) = true ↔ a = b := by
  obtain ⟨ai, at'⟩ := a
  obtain ⟨bi, bt⟩ := b
  simp only [FunctionIdentifier.lt, FunctionIdentifier.mk.injEq]
  by_cases h1 : at' < bt
  · simp [h1]; omega
  · by_cases h2 : bt < at'
    · simp [h1, h2]; omega
    · simp [h1, h2]; omega

/-- Identifiers for which `operator<` is a strict weak order: a type followed by another one has only the index 0. -/
def Ordered (keys : List FunctionIdentifier) : Prop := ∀ a ∈ keys, ∀ b ∈ keys, a.functionType < b.functionType → a.functionIndex = 0

theorem strictWeak_of_ordered {keys : List FunctionIdentifier} (h : Ordered keys) : strictWeak keys = true := by
  unfold strictWeak
  rw [List.all_eq_true]
  intro a ha
  rw [List.all_eq_true]
  intro b hb
  rw [List.all_eq_true]
  intro c hc
  have hab := h a ha b hb
  have hba := h b hb a ha
  have hac := h a ha c hc
  have hca := h c hc a ha
  have hbc := h b hb c hc
  have hcb := h c hc b hb
  have key : ∀ x y : FunctionIdentifier, (x.functionType < y.functionType → x.functionIndex = 0) → (y.functionType < x.functionType → y.functionIndex = 0) →
      (x.lt y = true ↔ x.functionType < y.functionType ∨ (x.functionType = y.functionType ∧ x.functionIndex < y.functionIndex)) := by
    intro x y h1 h2
    unfold FunctionIdentifier.lt
    split
    · simp [*]
    · rw [decide_eq_true_eq]; omega
  have k1 := key a b hab hba
  have k2 := key b a hba hab
  have k3 := key b c hbc hcb
  have k4 := key c b hcb hbc
  have k5 := key a c hac hca
  have k6 := key c a hca hac
  simp only [Bool.and_eq_true, Bool.or_eq_true, Bool.not_eq_true', ← Bool.not_eq_true, k1, k2, k3, k4, k5, k6, not_and, not_or]
  omega

/-- The identifiers of the functions of a model, type by type. -/
def idsFrom (ty : Nat) : List (List (Fn V)) → List FunctionIdentifier
  | [] => []
  | fs :: rest => (List.range fs.length).map (fun i => ⟨i, ty⟩) ++ idsFrom (ty + 1) rest

theorem mem_idsFrom {id : FunctionIdentifier} : ∀ {all : List (List (Fn V))} {ty : Nat}, id ∈ idsFrom ty all ↔
    ∃ j fs, all[j]? = some fs ∧ id.functionType = ty + j ∧ id.functionIndex < fs.length
  | [], ty => by simp [idsFrom]
  | fs :: rest, ty => by
    rw [idsFrom, List.mem_append, mem_idsFrom]
    constructor
    · rintro (h | ⟨j, gs, h1, h2, h3⟩)
      · obtain ⟨i, hi, rfl⟩ := List.mem_map.mp h
        exact ⟨0, fs, rfl, rfl, List.mem_range.mp hi⟩
      · exact ⟨j + 1, gs, by simpa using h1, by omega, h3⟩
    · rintro ⟨j, gs, h1, h2, h3⟩
      cases j with
      | zero =>
        simp only [List.getElem?_cons_zero, Option.some.injEq] at h1
        subst h1
        left
        refine List.mem_map.mpr ⟨id.functionIndex, List.mem_range.mpr h3, ?_⟩
        obtain ⟨i, t⟩ := id
        simp only [Nat.add_zero] at h2
        simp [h2]
      | succ j => exact Or.inr ⟨j, gs, by simpa using h1, by omega, h3⟩

/-- Some function of one type is followed by a function of a later type only if its index is 0. -/
def OrderedTypes (all : List (List (Fn V))) : Prop :=
  ∀ (i j : Nat) (fs gs : List (Fn V)), all[i]? = some fs → all[j]? = some gs → i < j → gs ≠ [] → fs.length ≤ 1

theorem ordered_ids {all : List (List (Fn V))} (h : OrderedTypes all) (ty : Nat) : Ordered (idsFrom ty all) := by
  intro a ha b hb hlt
  obtain ⟨i, fs, h1, h2, h3⟩ := mem_idsFrom.mp ha
  obtain ⟨j, gs, g1, g2, g3⟩ := mem_idsFrom.mp hb
  have := h i j fs gs h1 g1 (by omega) (by rintro rfl; simp at g3)
  omega

/-- State of the conversion after the functions with identifiers `ids` and tables `fns`. -/
structure CInv (p : Problem V) (out : GM V) (m : FidMap) (ids : List FunctionIdentifier) (done : List (Fn V)) : Prop where
  rep : Represents out ⟨p.numLabels, []⟩
  fns : ∃ tbl, out.functions = [tbl] ∧ List.Forall₂ (fun g f => g.shape = f.shape ∧ ∀ c, InShape f.shape c → g.table c = f.table c) tbl done
  map : m = ids.zipIdx.map (fun e => (e.1, ⟨e.2, 0⟩))
  len : ids.length = done.length

theorem mapFind_none {m : FidMap} {k : FunctionIdentifier} (h : k ∉ m.map Prod.fst) : mapFind m k = none := by
  unfold mapFind
  rw [List.find?_eq_none]
  intro e he hc
  rw [incomparable_iff] at hc
  exact h (hc ▸ List.mem_map_of_mem he)

theorem mapFind_some : ∀ {m : FidMap} {k v : FunctionIdentifier}, (m.map Prod.fst).Nodup → (k, v) ∈ m → mapFind m k = some (k, v)
  | [], k, v, _, h => by simp at h
  | e :: m, k, v, hn, h => by
    unfold mapFind
    rw [List.find?_cons]
    by_cases hc : (!(e.1.lt k) && !(k.lt e.1)) = true
    · rw [hc]
      have hek := (incomparable_iff _ _).mp hc
      rcases List.mem_cons.mp h with rfl | h
      · rfl
      · rw [List.map_cons, List.nodup_cons] at hn
        exact absurd (List.mem_map_of_mem (f := Prod.fst) h) (hek ▸ hn.1)
    · rw [Bool.not_eq_true] at hc
      rw [hc]
      rcases List.mem_cons.mp h with rfl | h
      · have := (incomparable_iff k k).mpr rfl
        simp only at hc
        rw [this] at hc
        simp at hc
      · rw [List.map_cons, List.nodup_cons] at hn
        exact mapFind_some hn.2 h

theorem map_fst_zipIdx (ids : List FunctionIdentifier) : (ids.zipIdx.map (fun e => ((e.1, ⟨e.2, 0⟩) : FunctionIdentifier × FunctionIdentifier))).map Prod.fst = ids := by
  rw [List.map_map]
  exact List.zipIdx_map_fst 0 ids

theorem convertType_spec (zero : V) {p : Problem V} (ty : Nat) (allIds : List FunctionIdentifier) (ho : Ordered allIds) : ∀ (fs : List (Fn V)) (f : Nat) (out : GM V) (m : FidMap)
    (ids : List FunctionIdentifier) (fns : List (Fn V)), (∀ g ∈ fs, g.shape ≠ []) → CInv p out m ids fns →
    (∀ id ∈ ids, id.functionType < ty ∨ (id.functionType = ty ∧ id.functionIndex < f)) → (∀ id ∈ ids, id ∈ allIds) →
    (∀ i, f ≤ i → i < f + fs.length → (⟨i, ty⟩ : FunctionIdentifier) ∈ allIds) →
    ∃ out' m', convertType zero ty f fs out m = some (out', m') ∧ CInv p out' m' (ids ++ (List.range' f fs.length).map (fun i => ⟨i, ty⟩)) (fns ++ fs)
  | [], f, out, m, ids, fns, _, h, _, _, _ => ⟨out, m, rfl, by simpa using h⟩
  | fn :: fs, f, out, m, ids, fns, hne, h, hlt, hsub, hall => by
    obtain ⟨g, g1, g2, g3⟩ := explicitTable_spec zero (hne fn (by simp))
    obtain ⟨tbl, t1, t2⟩ := h.fns
    have hkey : (⟨f, ty⟩ : FunctionIdentifier) ∉ m.map Prod.fst := by
      rw [h.map, map_fst_zipIdx]
      intro hc
      have := hlt _ hc
      simp only at this
      omega
    have hsw : strictWeak (⟨f, ty⟩ :: m.map Prod.fst) = true := by
      apply strictWeak_of_ordered
      have hm : ∀ x ∈ (⟨f, ty⟩ : FunctionIdentifier) :: m.map Prod.fst, x ∈ allIds := by
        intro x hx
        rcases List.mem_cons.mp hx with rfl | hx
        · exact hall f (le_refl _) (by simp)
        · rw [h.map, map_fst_zipIdx] at hx
          exact hsub x hx
      intro a ha b hb
      exact ho a (hm a ha) b (hm b hb)
    have htbl : out.functions[0]? = some tbl := by rw [t1]; rfl
    rw [convertType, g1]
    simp only [GM.addFunction]
    rw [htbl]
    simp only [mapAssign]
    rw [if_pos hsw, mapFind_none hkey]
    simp only
    have hlen : tbl.length = ids.length := by rw [t2.length_eq, h.len]
    obtain ⟨out', m', e, hi⟩ := convertType_spec zero ty allIds ho fs (f + 1) { out with functions := out.functions.set 0 (tbl ++ [g]) } (m ++ [(⟨f, ty⟩, ⟨tbl.length, 0⟩)])
      (ids ++ [⟨f, ty⟩]) (fns ++ [fn]) (fun g hg => hne g (by simp [hg]))
      { rep := represents_functions h.rep 0 tbl g htbl
        fns := ⟨tbl ++ [g], by simp [t1], List.rel_append (R := _) t2 (by simp [g2]; exact g3)⟩
        map := by rw [h.map, List.zipIdx_append, hlen]; simp
        len := by simp [h.len] }
      (by
        intro id hid
        rcases List.mem_append.mp hid with hid | hid
        · have := hlt id hid; omega
        · rw [List.mem_singleton] at hid
          subst hid
          right; exact ⟨rfl, by simp⟩)
      (by
        intro id hid
        rcases List.mem_append.mp hid with hid | hid
        · exact hsub id hid
        · rw [List.mem_singleton] at hid
          subst hid
          exact hall f (le_refl _) (by simp))
      (fun i h1 h2 => hall i (by omega) (by simp; omega))
    refine ⟨out', m', e, ?_⟩
    rw [List.length_cons, List.range'_succ]
    simpa using hi

theorem convertAll_spec (zero : V) {p : Problem V} (allIds : List FunctionIdentifier) (ho : Ordered allIds) : ∀ (todo : List (List (Fn V))) (ty : Nat) (out : GM V) (m : FidMap)
    (ids : List FunctionIdentifier) (fns : List (Fn V)), (∀ fs ∈ todo, ∀ g ∈ fs, g.shape ≠ []) → CInv p out m ids fns →
    (∀ id ∈ ids, id.functionType < ty) → (∀ id ∈ ids, id ∈ allIds) → (∀ id ∈ idsFrom ty todo, id ∈ allIds) →
    ∃ out' m', convertAll zero ty todo out m = some (out', m') ∧ CInv p out' m' (ids ++ idsFrom ty todo) (fns ++ todo.flatten)
  | [], ty, out, m, ids, fns, _, h, _, _, _ => ⟨out, m, rfl, by simpa [idsFrom] using h⟩
  | fs :: todo, ty, out, m, ids, fns, hne, h, hlt, hsub, hall => by
    rw [idsFrom] at hall
    obtain ⟨out', m', e, hi⟩ := convertType_spec zero ty allIds ho fs 0 out m ids fns (fun g hg => hne fs (by simp) g hg) h
      (fun id hid => Or.inl (hlt id hid)) hsub
      (fun i _ hi => hall _ (List.mem_append_left _ (List.mem_map.mpr ⟨i, List.mem_range.mpr (by omega), rfl⟩)))
    rw [← List.range_eq_range'] at hi
    obtain ⟨out'', m'', e', hi'⟩ := convertAll_spec zero allIds ho todo (ty + 1) out' m' _ _ (fun fs hfs => hne fs (by simp [hfs])) hi
      (by
        intro id hid
        rcases List.mem_append.mp hid with hid | hid
        · have := hlt id hid; omega
        · obtain ⟨i, _, rfl⟩ := List.mem_map.mp hid
          exact Nat.lt_succ_self _)
      (by
        intro id hid
        rcases List.mem_append.mp hid with hid | hid
        · exact hsub id hid
        · exact hall id (List.mem_append_left _ hid))
      (fun id hid => hall id (List.mem_append_right _ hid))
    rw [convertAll, e]
    simp only
    refine ⟨out'', m'', e', ?_⟩
    rw [idsFrom]
    simpa using hi'

theorem nodup_idsFrom : ∀ (all : List (List (Fn V))) (ty : Nat), (idsFrom ty all).Nodup
  | [], _ => by simp [idsFrom]
  | fs :: rest, ty => by
    rw [idsFrom, List.nodup_append]
    refine ⟨?_, nodup_idsFrom rest (ty + 1), ?_⟩
    · exact List.nodup_range.map (fun i j h => by simpa using h)
    · intro a ha b hb hab
      subst hab
      obtain ⟨i, _, rfl⟩ := List.mem_map.mp ha
      obtain ⟨j, _, _, h2, _⟩ := mem_idsFrom.mp hb
      simp only at h2
      omega

/-- The position of an identifier in the list of all functions. -/
theorem idsFrom_getElem? : ∀ (all : List (List (Fn V))) (ty j i : Nat) (fs : List (Fn V)) (g : Fn V), all[j]? = some fs → fs[i]? = some g →
    ∃ k : Nat, (idsFrom ty all)[k]? = some ⟨i, ty + j⟩ ∧ all.flatten[k]? = some g
  | [], ty, j, i, fs, g, h, _ => by simp at h
  | fs' :: rest, ty, 0, i, fs, g, h, hg => by
    simp only [List.getElem?_cons_zero, Option.some.injEq] at h
    subst h
    have hi := (List.getElem?_eq_some_iff.mp hg).1
    refine ⟨i, ?_, ?_⟩
    · rw [idsFrom, List.getElem?_append_left (by simpa using hi), List.getElem?_map, List.getElem?_range hi]; rfl
    · rw [List.flatten_cons, List.getElem?_append_left hi, hg]
  | fs' :: rest, ty, j + 1, i, fs, g, h, hg => by
    obtain ⟨k, h1, h2⟩ := idsFrom_getElem? rest (ty + 1) j i fs g (by simpa using h) hg
    refine ⟨fs'.length + k, ?_, ?_⟩
    · rw [idsFrom, List.getElem?_append_right (by simp)]
      simp only [List.length_map, List.length_range, Nat.add_sub_cancel_left]
      rw [h1, show ty + 1 + j = ty + (j + 1) by omega]
    · rw [List.flatten_cons, List.getElem?_append_right (by omega), Nat.add_sub_cancel_left, h2]

theorem convertFactors_spec {gm : GM V} {p : Problem V} {m : FidMap} (hlab : gm.numLabels = p.numLabels) {tbl : List (Fn V)}
    (hm : m = (idsFrom 0 gm.functions).zipIdx.map (fun e => (e.1, ⟨e.2, 0⟩))) (ho : OrderedTypes gm.functions)
    (ht : List.Forall₂ (fun g f => g.shape = f.shape ∧ ∀ c, InShape f.shape c → g.table c = f.table c) tbl gm.functions.flatten) :
    ∀ (fs : List FactorRec) (ts done : List (Term V)) (out : GM V), List.Forall₂ (FactorMatches gm) fs ts → Represents out ⟨p.numLabels, done⟩ → out.functions = [tbl] →
    ∃ out', convertFactors gm fs out m = .ok () out' ∧ Represents out' ⟨p.numLabels, done ++ ts⟩ ∧ out'.functions = [tbl]
  | [], _, done, out, .nil, h, hf => ⟨out, rfl, by simpa using h, hf⟩
  | f :: fs, _, done, out, .cons (b := t) (l₂ := ts) hfm hrest, h, hf => by
    obtain ⟨fn, f1, f2, f3⟩ := hfm.fn
    have hf1 := f1
    unfold GM.getFunction at f1
    rw [Option.bind_eq_some_iff] at f1
    obtain ⟨gs, e1, e2⟩ := f1
    simp only at e1 e2
    obtain ⟨k, k1, k2⟩ := idsFrom_getElem? gm.functions 0 _ _ gs fn e1 e2
    rw [Nat.zero_add] at k1
    have hkeys : m.map Prod.fst = idsFrom 0 gm.functions := by rw [hm, map_fst_zipIdx]
    have hmem : ((⟨f.functionIndex, f.functionType⟩, ⟨k, 0⟩) : FunctionIdentifier × FunctionIdentifier) ∈ m := by
      rw [hm]
      refine List.mem_map.mpr ⟨(⟨f.functionIndex, f.functionType⟩, k), ?_, rfl⟩
      rw [List.mem_zipIdx_iff_getElem?]
      exact k1
    have hin : (⟨f.functionIndex, f.functionType⟩ : FunctionIdentifier) ∈ idsFrom 0 gm.functions := List.mem_of_getElem? k1
    have hsw : strictWeak (⟨f.functionIndex, f.functionType⟩ :: m.map Prod.fst) = true := by
      apply strictWeak_of_ordered
      rw [hkeys]
      have := ordered_ids ho 0
      intro a ha b hb
      exact this a (by rcases List.mem_cons.mp ha with rfl | ha; exacts [hin, ha]) b (by rcases List.mem_cons.mp hb with rfl | hb; exacts [hin, hb])
    have hfind := mapFind_some (by rw [hkeys]; exact nodup_idsFrom _ _) hmem
    rw [convertFactors, mapGet, if_pos hsw, hfind]
    simp only
    have hklt := (List.getElem?_eq_some_iff.mp k2).1
    have hklt' : k < tbl.length := by rw [ht.length_eq]; exact hklt
    have hrel : tbl[k].shape = fn.shape ∧ ∀ c, InShape fn.shape c → tbl[k].table c = fn.table c := by
      have := List.forall₂_iff_get.mp ht |>.2 k hklt' hklt
      simp only [List.get_eq_getElem] at this
      rw [List.getElem?_eq_getElem hklt] at k2
      rw [Option.some.inj k2] at this
      exact this
    have hout : out.numLabels = gm.numLabels := by rw [hlab]; exact h.labels
    obtain ⟨out', a1, a2, a3⟩ := represents_addFactor h ⟨k, 0⟩ t tbl[k] hfm.sorted (by rw [hout]; exact hfm.range)
      (by simp [GM.getFunction, hf, List.getElem?_eq_getElem hklt']) (by rw [hrel.1, f2, hout])
      (by
        intro c hc
        rw [hrel.1] at hc
        rw [hrel.2 c hc, f3 c hc])
    rw [hfm.scope, a1]
    simp only
    obtain ⟨out'', b1, b2, b3⟩ := convertFactors_spec hlab hm ho ht fs ts (done ++ [t]) out' hrest a2 (by rw [a3, hf])
    exact ⟨out'', b1, by simpa using b2, b3⟩

theorem represents_ofSpace (n : Nat) (labels : List Nat) : Represents (GM.ofSpace n labels : GM V) ⟨labels, []⟩ where
  labels := rfl
  adjLen := by simp [GM.ofSpace]
  factors := by simp [GM.ofSpace]
  order := rfl
  adj := by
    intro v hv
    simp only [GM.ofSpace] at hv ⊢
    simp [hv]

theorem convert_spec (zero : V) {gm : GM V} {p : Problem V} (h : Stores gm p) (hne : ∀ fs ∈ gm.functions, ∀ g ∈ fs, g.shape ≠ []) (ho : OrderedTypes gm.functions) :
    ∃ out tbl, convert zero gm = .ok () out ∧ Represents out p ∧ out.functions = [tbl] ∧
      List.Forall₂ (fun g f => g.shape = f.shape ∧ ∀ c, InShape f.shape c → g.table c = f.table c) tbl gm.functions.flatten := by
  obtain ⟨out, m, e, hi⟩ := convertAll_spec zero (p := p) (idsFrom 0 gm.functions) (ordered_ids ho 0) gm.functions 0 (GM.ofSpace 1 gm.numLabels) [] [] [] hne
    { rep := by rw [h.labels]; exact represents_ofSpace 1 p.numLabels
      fns := ⟨[], rfl, .nil⟩
      map := rfl
      len := rfl }
    (by simp) (by simp) (fun id h => h)
  rw [List.nil_append, List.nil_append] at hi
  obtain ⟨tbl, t1, t2⟩ := hi.fns
  obtain ⟨out', a1, a2, a3⟩ := convertFactors_spec h.labels hi.map ho t2 gm.factors p.terms [] out h.factors hi.rep t1
  refine ⟨out', tbl, ?_, by simpa using a2, a3, t2⟩
  unfold convert
  rw [e]
  exact a1

end ExplicitModel
end OpenGM
