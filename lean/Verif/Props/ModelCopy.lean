import Verif.Lemmas.ModelCopy
import Verif.Props.GraphicalModel
/-
C07, C52: copies of models have value semantics.

A history is a list of constructions, calls, copy constructions, assignments (same or different function type list) and destructions of any
number of model objects; `Spec.storeAfter ops` says what every object should hold afterwards (Spec/ModelStore.lean).
-/
namespace OpenGM
open Spec
namespace ModelStore
variable {V : Type}

theorem storeInv_nil : StoreInv ([] : Store V) [] := ⟨rfl, by intro a A h; simp at h⟩

/-- C07 (refinement): any valid history of model objects runs to its end, with no exception and no access to destroyed objects, and afterwards
every object not destroyed evaluates every labeling of its own problem to the energy of that problem, and reports its variables, factors and
adjacent factors. -/
theorem C07_refines (o : Operation V) (eqv : Fn V → Fn V → Bool) (he : EqvSound eqv) (ops : List (StoreOp V)) (hv : ValidStoreHistory [] ops) :
    ∃ st, run eqv [] ops = .ok () st ∧
      ∀ (a : Nat) (A : ModelObject V), (storeAfter ops)[a]? = some (some A) →
        (∀ x, A.built.problem.Labeling x → evaluate o st a x = some (A.built.problem.energy o x)) ∧
        ∃ pl, st[a]? = some (some pl) ∧ pl.obj.gm.numLabels = A.built.numLabels ∧ pl.obj.gm.factors.length = A.built.terms.length ∧
          Represents pl.obj.gm A.built.problem := by
  obtain ⟨st, h1, h2⟩ := inv_run he ops [] [] storeInv_nil hv
  refine ⟨st, h1, ?_⟩
  intro a A hA
  obtain ⟨pl, h3, h4⟩ := h2.live a A hA
  refine ⟨?_, pl, h3, h4.inv.rep.labels, h4.factors, h4.inv.rep⟩
  intro x hx
  rw [evaluate_eq o h3 h4]
  exact evaluate_spec o h4.inv.rep.toStores x hx

theorem valid_append : ∀ (ops ops' : List (StoreOp V)) (s : List (Option (ModelObject V))), ValidStoreHistory s (ops ++ ops') →
    ValidStoreHistory s ops ∧ ValidStoreHistory (ops.foldl StoreOp.apply s) ops'
  | [], _, _, h => ⟨trivial, h⟩
  | op :: ops, ops', s, h => by
    obtain ⟨h1, h2⟩ := valid_append ops ops' (op.apply s) h.2
    exact ⟨⟨h.1, h1⟩, h2⟩

theorem apply_avoids {c : Nat} {s : List (Option (ModelObject V))} (hc : c < s.length) {op : StoreOp V} (h : op.Avoids c) :
    (op.apply s)[c]? = s[c]? ∧ c < (op.apply s).length := by
  cases op with
  | create cl => exact ⟨by simp only [StoreOp.apply]; rw [List.getElem?_append_left hc], by simp [StoreOp.apply]; omega⟩
  | createSpace cl n => exact ⟨by simp only [StoreOp.apply]; rw [List.getElem?_append_left hc], by simp [StoreOp.apply]; omega⟩
  | build a op =>
    simp only [StoreOp.apply]
    split
    · exact ⟨List.getElem?_set_ne h, by simpa using hc⟩
    · exact ⟨rfl, hc⟩
  | copy a =>
    simp only [StoreOp.apply]
    split
    · exact ⟨by rw [List.getElem?_append_left hc], by simp; omega⟩
    · exact ⟨rfl, hc⟩
  | assign a b =>
    simp only [StoreOp.apply]
    split
    · exact ⟨List.getElem?_set_ne h, by simpa using hc⟩
    · exact ⟨rfl, hc⟩
  | destroy a => exact ⟨List.getElem?_set_ne h, by simpa [StoreOp.apply] using hc⟩

theorem foldl_avoids {c : Nat} : ∀ (ops : List (StoreOp V)) (s : List (Option (ModelObject V))), c < s.length → (∀ op ∈ ops, op.Avoids c) →
    (ops.foldl StoreOp.apply s)[c]? = s[c]?
  | [], _, _, _ => rfl
  | op :: ops, s, hc, h => by
    obtain ⟨h1, h2⟩ := apply_avoids hc (h op (by simp))
    simp only [List.foldl_cons]
    rw [foldl_avoids ops _ h2 (fun op' h' => h op' (by simp [h'])), h1]

/-- C07 (independence): take any history that has led to an object `c` (built, copied or assigned), and continue with any further calls that do
not change `c` itself: building, assigning or destroying the object it was copied from, or copies of it. Then `c` evaluates every labeling to the
value it had before. -/
theorem C07_independent (o : Operation V) (eqv : Fn V → Fn V → Bool) (he : EqvSound eqv) (ops later : List (StoreOp V))
    (hv : ValidStoreHistory [] (ops ++ later)) (c : Nat) (A : ModelObject V) (hA : (storeAfter ops)[c]? = some (some A))
    (hl : ∀ op ∈ later, op.Avoids c) :
    ∃ st st', run eqv [] ops = .ok () st ∧ run eqv [] (ops ++ later) = .ok () st' ∧
      ∀ x, A.built.problem.Labeling x → ∃ val, evaluate o st c x = some val ∧ evaluate o st' c x = some val := by
  obtain ⟨st, h1, h2⟩ := C07_refines o eqv he ops (valid_append _ _ _ hv).1
  obtain ⟨st', h3, h4⟩ := C07_refines o eqv he (ops ++ later) hv
  have hA' : (storeAfter (ops ++ later))[c]? = some (some A) := by
    unfold storeAfter at hA ⊢
    rw [List.foldl_append, foldl_avoids later _ (List.getElem?_eq_some_iff.mp hA).1 hl]
    exact hA
  exact ⟨st, st', h1, h3, fun x hx => ⟨_, (h2 c A hA).1 x hx, (h4 c A hA').1 x hx⟩⟩

/-- C07 (copies are equal): a copy, and the target of an assignment, evaluate every labeling of the source to the value of the source. -/
theorem C07_equal (o : Operation V) (eqv : Fn V → Fn V → Bool) (he : EqvSound eqv) (ops : List (StoreOp V)) (b : Nat) (B : ModelObject V)
    (hB : (storeAfter ops)[b]? = some (some B)) (op : StoreOp V) (target : Nat)
    (hop : (op = .copy b ∧ target = (storeAfter ops).length) ∨ op = .assign target b) (hv : ValidStoreHistory [] (ops ++ [op])) :
    ∃ st, run eqv [] (ops ++ [op]) = .ok () st ∧
      ∀ x, B.built.problem.Labeling x → ∃ val, evaluate o st target x = some val ∧ evaluate o st b x = some val := by
  obtain ⟨st, h1, h2⟩ := C07_refines o eqv he (ops ++ [op]) hv
  have hstore : storeAfter (ops ++ [op]) = op.apply (storeAfter ops) := by simp [storeAfter]
  have hval := (valid_append _ _ _ hv).2.1
  change op.Valid (storeAfter ops) at hval
  have hbl := (List.getElem?_eq_some_iff.mp hB).1
  refine ⟨st, h1, ?_⟩
  rcases hop with ⟨rfl, rfl⟩ | rfl
  · have e1 : (storeAfter (ops ++ [StoreOp.copy b]))[(storeAfter ops).length]? = some (some B) := by
      rw [hstore]; simp [StoreOp.apply, hB]
    have e2 : (storeAfter (ops ++ [StoreOp.copy b]))[b]? = some (some B) := by
      rw [hstore]; simp only [StoreOp.apply, hB]; rw [List.getElem?_append_left hbl]; exact hB
    exact fun x hx => ⟨_, (h2 _ B e1).1 x hx, (h2 _ B e2).1 x hx⟩
  · obtain ⟨A, B', hA, hB', _⟩ := hval
    rw [hB] at hB'
    simp only [Option.some.injEq] at hB'
    subst hB'
    have e1 : (storeAfter (ops ++ [StoreOp.assign target b]))[target]? = some (some (A.assign B)) := by
      rw [hstore]; simp only [StoreOp.apply, hA, hB]; rw [List.getElem?_set_self (List.getElem?_eq_some_iff.mp hA).1]
    have e2 : ∃ B2, (storeAfter (ops ++ [StoreOp.assign target b]))[b]? = some (some B2) ∧ B2.built = B.built := by
      by_cases hab : target = b
      · subst hab; exact ⟨_, e1, rfl⟩
      · refine ⟨B, ?_, rfl⟩
        rw [hstore]; simp only [StoreOp.apply, hA, hB]; rw [List.getElem?_set_ne hab]; exact hB
    obtain ⟨B2, e2, e3⟩ := e2
    refine fun x hx => ⟨_, (h2 _ _ e1).1 x hx, ?_⟩
    have := (h2 _ _ e2).1 x (by rw [e3]; exact hx)
    rw [e3] at this
    exact this

/-- C52 (value): assigning a model of another type list, all of whose functions are of classes in the type list of the target, succeeds, and
both evaluate every labeling to the same value. -/
theorem C52_equal (o : Operation V) (eqv : Fn V → Fn V → Bool) (he : EqvSound eqv) (ops : List (StoreOp V)) (hv : ValidStoreHistory [] ops)
    (a b : Nat) (A B : ModelObject V) (hA : (storeAfter ops)[a]? = some (some A)) (hB : (storeAfter ops)[b]? = some (some B))
    (hc : ∀ c ∈ B.used, c ∈ A.classes) :
    ∃ st, run eqv [] (ops ++ [.assign a b]) = .ok () st ∧
      ∀ x, B.built.problem.Labeling x → ∃ val, evaluate o st a x = some val ∧ evaluate o st b x = some val := by
  refine C07_equal o eqv he ops b B hB _ a (Or.inr rfl) ?_
  have hval : ∀ (ops : List (StoreOp V)) (s : List (Option (ModelObject V))) (op : StoreOp V), ValidStoreHistory s ops →
      op.Valid (ops.foldl StoreOp.apply s) → ValidStoreHistory s (ops ++ [op]) := by
    intro ops
    induction ops with
    | nil => intro s op _ h; exact ⟨h, trivial⟩
    | cons p ps ih => intro s op h1 h2; exact ⟨h1.1, ih _ op h1.2 h2⟩
  exact hval ops [] _ hv ⟨A, B, hA, hB, Or.inr hc⟩

/-- C52 (exception): if the source holds a function of a class that is not in the type list of the target, the assignment throws; no other object
is changed. -/
theorem C52_throws (eqv : Fn V → Fn V → Bool) (he : EqvSound eqv) (ops : List (StoreOp V)) (hv : ValidStoreHistory [] ops)
    (a b : Nat) (A B : ModelObject V) (hA : (storeAfter ops)[a]? = some (some A)) (hB : (storeAfter ops)[b]? = some (some B))
    (hc : ∃ c ∈ B.used, c ∉ A.classes) :
    ∃ st st', run eqv [] ops = .ok () st ∧ step eqv st (.assign a b) = .throw st' ∧ ∀ c : Nat, c ≠ a → st'[c]? = st[c]? := by
  obtain ⟨st, h1, h2⟩ := inv_run he ops [] [] storeInv_nil hv
  obtain ⟨pa, ha1, ha2⟩ := h2.live a A hA
  obtain ⟨pb, hb1, hb2⟩ := h2.live b B hB
  obtain ⟨fns, h3⟩ := assignOther_throw ha2 hb2 hc
  have hne : pa.obj.classes ≠ pb.obj.classes := by
    rw [ha2.classes, hb2.classes]
    intro h
    obtain ⟨c, hcu, hcA⟩ := hc
    obtain ⟨k, fs, g1, _⟩ := hb2.held c hcu
    rw [h] at hcA
    exact hcA (List.mem_of_getElem? g1)
  have hs : step eqv st (.assign a b) = .throw (st.set a (some ⟨{ pa.obj with gm := { pa.obj.gm with numLabels := pb.obj.gm.numLabels, functions := fns } }, pa.ids⟩)) := by
    simp only [step, ha1, hb1, if_neg hne, h3]
  exact ⟨st, _, h1, hs, fun c hca => List.getElem?_set_ne (Ne.symm hca)⟩

/-! ### Concrete histories -/

/-- Two objects of the type lists (10, 20) and (30, 20, 10); the first is built, copied, assigned to the second, changed and destroyed. -/
def copyDemo : List (StoreOp Int) :=
  [.create [10, 20], .createSpace [30, 20, 10] [4],
   .build 0 (.addVariable 2), .build 0 (.addVariable 3), .build 0 (.addFunction 1 ⟨[2, 3], fun c => c.foldl (fun a l => a * 10 + (l : Int)) 2⟩),
   .build 0 (.addFactor 0 [0, 1]), .copy 0, .assign 1 0, .assign 1 1,
   .build 0 (.addFunction 0 ⟨[2], fun _ => 5⟩), .build 0 (.addFactor 1 [0]), .build 2 (.addFactor 0 [0, 1]), .destroy 0]

theorem copyDemo_valid : ValidStoreHistory [] copyDemo := by
  simp [copyDemo, ValidStoreHistory, StoreOp.Valid, StoreOp.apply, BuildOp.Valid, BuildOp.apply, BuildOp.class, Built.empty, restrict,
    ModelObject.assign]

/-- The values after this history: the source is gone, the copy got a second factor, the assigned object has the value of the source. -/
example : ∃ st, run (fun _ _ => false) [] copyDemo = .ok () st ∧ evaluate intAdd st 1 [1, 2] = some 212 ∧ evaluate intAdd st 2 [1, 2] = some 424 := by
  exact ⟨_, rfl, by decide, by decide⟩

example : ∃ (ops later : List (StoreOp Int)) (A : ModelObject Int), ValidStoreHistory [] (ops ++ later) ∧ (storeAfter ops)[1]? = some (some A) ∧
    A.built.terms ≠ [] ∧ (∀ op ∈ later, op.Avoids 1) ∧ later.length = 4 :=
  ⟨copyDemo.take 9, copyDemo.drop 9, _, copyDemo_valid, rfl, List.cons_ne_nil _ _, by simp [copyDemo, StoreOp.Avoids], rfl⟩

/-- Hypotheses of C52: different type lists. -/
example : ∃ (ops : List (StoreOp Int)) (A B : ModelObject Int), ValidStoreHistory [] ops ∧ (storeAfter ops)[1]? = some (some A) ∧
    (storeAfter ops)[0]? = some (some B) ∧ A.classes ≠ B.classes ∧ (∀ c ∈ B.used, c ∈ A.classes) ∧ B.built.terms ≠ [] := by
  refine ⟨copyDemo.take 7, _, _, (valid_append (copyDemo.take 7) (copyDemo.drop 7) _ copyDemo_valid).1, rfl, rfl, ?_, ?_, ?_⟩
  · simp
  · simp [BuildOp.class]
  · exact List.cons_ne_nil _ _

/-- Hypotheses of the exception. -/
def throwDemo : List (StoreOp Int) :=
  [.createSpace [10] [2, 2], .createSpace [20] [3], .build 1 (.addFunction 0 ⟨[3], fun _ => 1⟩)]

example : ∃ A B, ValidStoreHistory [] throwDemo ∧ (storeAfter throwDemo)[0]? = some (some A) ∧ (storeAfter throwDemo)[1]? = some (some B) ∧
    ∃ c ∈ B.used, c ∉ A.classes := by
  refine ⟨_, _, ?_, rfl, rfl, 20, ?_, ?_⟩
  · simp [throwDemo, ValidStoreHistory, StoreOp.Valid, StoreOp.apply, BuildOp.Valid, Built.empty]
  · simp [BuildOp.class]
  · simp

/-- C52 fails in one point: an assignment that throws changes its target: afterwards the target reports the number of variables of the source
(here 1 instead of 2). -/
theorem C52_strong_violated : ∃ (st st' : Store Int) (p p' : Place Int), run (fun _ _ => false) [] throwDemo = .ok () st ∧
    step (fun _ _ => false) st (.assign 0 1) = .throw st' ∧ st[0]? = some (some p) ∧ st'[0]? = some (some p') ∧
    p.obj.gm.numLabels = [2, 2] ∧ p'.obj.gm.numLabels = [3] ∧ p'.obj.gm.adj.length = 2 :=
  ⟨_, _, _, _, rfl, rfl, rfl, rfl, rfl, rfl, rfl⟩

/-- Functions that the target of an assignment held before, of classes that the source's type list lacks, stay in the target: here object 1 is
assigned the empty model 0, has no factors, but can then not be assigned to 2, although 2 can be assigned 0. -/
def staleDemo : List (StoreOp Int) :=
  [.create [10], .create [10, 20], .create [10, 30], .build 1 (.addFunction 1 ⟨[3], fun _ => 1⟩), .assign 1 0, .assign 2 0]

theorem C52_stale_violated : ValidStoreHistory [] staleDemo ∧ ∃ (st st' : Store Int) (B : ModelObject Int), run (fun _ _ => false) [] staleDemo = .ok () st ∧
    (storeAfter staleDemo)[1]? = some (some B) ∧ B.built = Built.empty ∧ step (fun _ _ => false) st (.assign 2 1) = .throw st' := by
  refine ⟨?_, _, _, _, rfl, rfl, rfl, rfl⟩
  simp [staleDemo, ValidStoreHistory, StoreOp.Valid, StoreOp.apply, BuildOp.Valid, BuildOp.apply, BuildOp.class, Built.empty, ModelObject.assign]

end ModelStore
end OpenGM
