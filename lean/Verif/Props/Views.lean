import Verif.Model.Views
import Verif.Spec.Views
import Mathlib.Algebra.BigOperators.Group.List.Lemmas
import Mathlib.Algebra.Ring.Int.Defs
import Mathlib.Tactic.Ring
/-
C85: functions that refer to factors of another model.
-/
namespace OpenGM
namespace Views
open OpenGM.Spec
variable {V P : Type}

/-- C85, ViewFunction: the view of a factor has its values and its shape, whatever the model has become since. -/
theorem C85_view (gm : List (Factor V)) (i : Nat) {f : Factor V} (hf : gm[i]? = some f) (ls : List Nat) :
    (View.make i).eval gm ls = f.eval ls ∧ (View.make i).info gm = some (f.shape.length, f.shape, f.shape.prod) := by
  simp [View.make, View.eval, View.info, deref, hf, Factor.info]

theorem sizeLoop_eq : ∀ (ns : List Nat) (s : Nat), sizeLoop ns s = s * ns.prod := by
  intro ns
  induction ns with
  | nil => intro s; simp [sizeLoop]
  | cons n ns ih => intro s; rw [sizeLoop, ih, List.prod_cons]; ring

/-- C85, violated: the default constructors of ViewFunction, ViewConvertFunction and AccumulatedViewFunction make objects of which the shape (and for the first two the value) is undefined in every model. -/
theorem C85_violated_default (A : Arith V P) (o : Operator) (a : Accumulator) (one : V) (gm : List (Factor V)) (ls : List Nat) :
    View.default.eval gm ls = none ∧ View.default.info gm = none ∧ (Convert.default one).eval A o a gm ls = none ∧ (Convert.default one).info gm = none ∧ Accumulated.default.info gm = none := by
  simp [View.default, View.eval, View.info, deref, Convert.default, Convert.eval, Convert.info, Accumulated.default, Accumulated.info]

/-! ### conversion of the semi-ring -/

theorem map_prod_hom [AddCommGroup V] [CommMonoid P] (e : V → P) (h0 : e 0 = 1) (ha : ∀ x y, e (x + y) = e x * e y) (vals : List V) :
    (vals.map e).prod = e vals.sum := by
  induction vals with
  | nil => simp [h0]
  | cons v vals ih => simp [ih, ha]

theorem map_prod_mul [CommMonoid V] [CommMonoid P] (e : V → P) (h0 : e 1 = 1) (ha : ∀ x y, e (x * y) = e x * e y) (vals : List V) :
    (vals.map e).prod = e vals.prod := by
  induction vals with
  | nil => simp [h0]
  | cons v vals ih => simp [ih, ha]

/-- C85, ViewConvertFunction for sums: if the factors of a model have the values `vals` at the labels of their variables, the product of the converted factors is the exponential of the inverse temperature times the value of the
labeling (with a minus for the Minimizer); the constructor without temperature uses 1. `exp` is any function with the functional equation of the exponential. -/
theorem C85_convert_adder [CommRing V] [CommMonoid P] (cast : V → P) (inv : P → P) {exp : V → P} (h0 : exp 0 = 1) (ha : ∀ x y, exp (x + y) = exp x * exp y)
    (gm : List (Factor V)) (labels : Nat → List Nat) {vals : List V} (hv : Results gm.length (fun i => (gm[i]?).bind (fun f => f.eval (labels i))) vals) (t : V) :
    (∃ ps, Results gm.length (fun i => (Convert.makeT i t).eval ⟨cast, inv, exp, fun x => -x, fun x y => x * y⟩ .adder .minimizer gm (labels i)) ps ∧ ps.prod = exp (-(t * vals.sum))) ∧
    (∃ ps, Results gm.length (fun i => (Convert.makeT i t).eval ⟨cast, inv, exp, fun x => -x, fun x y => x * y⟩ .adder .maximizer gm (labels i)) ps ∧ ps.prod = exp (t * vals.sum)) ∧
    (∃ ps, Results gm.length (fun i => (Convert.make 1 i).eval ⟨cast, inv, exp, fun x => -x, fun x y => x * y⟩ .adder .minimizer gm (labels i)) ps ∧ ps.prod = exp (-vals.sum)) ∧
    (∃ ps, Results gm.length (fun i => (Convert.make 1 i).eval ⟨cast, inv, exp, fun x => -x, fun x y => x * y⟩ .adder .maximizer gm (labels i)) ps ∧ ps.prod = exp vals.sum) := by
  have key : ∀ c : V, (vals.map (fun x => exp (c * x))).prod = exp (c * vals.sum) := by
    intro c
    have := map_prod_hom (fun x => exp (c * x)) (by simp [h0]) (by intro x y; rw [mul_add, ha]) vals
    exact this
  have res : ∀ (e : V → P) (g : Nat → Option P), (∀ i, g i = ((gm[i]?).bind (fun f => f.eval (labels i))).map e) → Results gm.length g (vals.map e) := by
    intro e g hg
    refine ⟨by simpa using hv.1, ?_⟩
    intro i hi
    have h1 := hv.2 i hi
    simp only at h1
    rw [hg i, h1]
    simp
  refine ⟨⟨_, res (fun x => exp (-t * x)) _ (fun i => rfl), ?_⟩, ⟨_, res (fun x => exp (t * x)) _ (fun i => rfl), ?_⟩, ⟨_, res (fun x => exp (-1 * x)) _ (fun i => rfl), ?_⟩, ⟨_, res (fun x => exp (1 * x)) _ (fun i => rfl), ?_⟩⟩
  · rw [key]; congr 1; ring
  · rw [key]
  · rw [key]; congr 1; ring
  · rw [key]; congr 1; ring

/-- C85, ViewConvertFunction for products without temperature: the product of the converted factors is the value of the labeling, or its inverse for the Minimizer. `inv` is any function with the laws of the inverse. -/
theorem C85_convert_multiplier_partial [CommRing V] (exp : V → V) (mul : V → V → V) {inv : V → V} (h0 : inv 1 = 1) (ha : ∀ x y, inv (x * y) = inv x * inv y)
    (gm : List (Factor V)) (labels : Nat → List Nat) {vals : List V} (hv : Results gm.length (fun i => (gm[i]?).bind (fun f => f.eval (labels i))) vals) :
    (∃ ps, Results gm.length (fun i => (Convert.make 1 i).eval ⟨id, inv, exp, fun x => -x, mul⟩ .multiplier .maximizer gm (labels i)) ps ∧ ps.prod = vals.prod) ∧
    (∃ ps, Results gm.length (fun i => (Convert.make 1 i).eval ⟨id, inv, exp, fun x => -x, mul⟩ .multiplier .minimizer gm (labels i)) ps ∧ ps.prod = inv vals.prod) := by
  have res : ∀ (e : V → V) (g : Nat → Option V), (∀ i, g i = ((gm[i]?).bind (fun f => f.eval (labels i))).map e) → Results gm.length g (vals.map e) := by
    intro e g hg
    refine ⟨by simpa using hv.1, ?_⟩
    intro i hi
    have h1 := hv.2 i hi
    simp only at h1
    rw [hg i, h1]
    simp
  refine ⟨⟨_, res (fun x => x) _ (fun i => rfl), by simp⟩, ⟨_, res inv _ (fun i => rfl), map_prod_mul inv h0 ha vals⟩⟩

/-- C85, violated: with the operator Multiplier the inverse temperature is ignored, for every model, factor and temperature, so a model with temperature is not the power of the original one: a factor with value 3 viewed with inverse temperature 2 is 3, not 9. -/
theorem C85_violated_temperature (A : Arith V P) (a : Accumulator) (gm : List (Factor V)) (i : Nat) (s t : V) (ls : List Nat) :
    (Convert.makeT i s).eval A .multiplier a gm ls = (Convert.makeT i t).eval A .multiplier a gm ls ∧
      (Convert.makeT 0 (2 : Int)).eval ⟨id, id, id, id, fun x y => x * y⟩ .multiplier .maximizer [⟨[1], fun _ => some (3 : Int)⟩] [0] = some 3 := by
  refine ⟨?_, rfl⟩
  cases a <;> rfl

/-- C85, ViewConvertFunction: the shape is that of the factor. -/
theorem C85_convert_shape (gm : List (Factor V)) (i : Nat) {f : Factor V} (hf : gm[i]? = some f) (one t : V) :
    (Convert.makeT i t).info gm = some (f.shape.length, f.shape, f.shape.prod) ∧ (Convert.make one i).info gm = some (f.shape.length, f.shape, f.shape.prod) := by
  simp [Convert.makeT, Convert.make, Convert.info, deref, hf, Factor.info]

/-! ### accumulated factors -/

theorem accumulate_spec [CommMonoid V] (gm : List (Factor V)) (ls : List Nat) (get : Nat → V) : ∀ (is : List Nat) (r : V),
    (∀ i ∈ is, (gm[i]?).bind (fun f => f.eval ls) = some (get i)) →
    accumulate (fun a b => a * b) gm ls (is.map some) r = some (r * (is.map get).prod) := by
  intro is
  induction is with
  | nil => intro r _; simp [accumulate]
  | cons i is ih =>
    intro r h
    have h1 := h i (by simp)
    rw [List.map_cons, accumulate]
    simp only [deref, h1]
    rw [ih _ (fun j hj => h j (by simp [hj]))]
    simp [mul_assoc]

/-- C85, AccumulatedViewFunction: for factors that are defined at the labels, the value is the combination of their values, for every commutative operation with a neutral element (sums and products); the shape is that of the first factor.
Without factors the value is neutral. -/
theorem C85_accumulated [CommMonoid V] (gm : List (Factor V)) (is : List Nat) (ls : List Nat) (get : Nat → V) (h : ∀ i ∈ is, (gm[i]?).bind (fun f => f.eval ls) = some (get i)) :
    (Accumulated.range (is.map some)).eval (fun a b => a * b) 1 gm ls = some (is.map get).prod ∧
      (∀ i js f, is = i :: js → gm[i]? = some f → (Accumulated.range (is.map some)).info gm = some (f.shape.length, f.shape, f.shape.prod)) ∧
      (∀ i ∈ is, (Accumulated.one i).eval (fun a b => a * b) 1 gm ls = some (get i)) ∧ Accumulated.default.eval (fun a b => a * b) 1 gm ls = some 1 := by
  refine ⟨?_, ?_, ?_, rfl⟩
  · rw [Accumulated.eval, Accumulated.range, accumulate_spec gm ls get is 1 h, one_mul]
  · rintro i js f rfl hf
    simp [Accumulated.range, Accumulated.info, deref, hf, Factor.info]
  · intro i hi
    have := accumulate_spec gm ls get [i] 1 (by intro j hj; simp at hj; subst hj; exact h j hi)
    simpa [Accumulated.one, Accumulated.eval] using this

/-- C85, AccumulatedViewFunction: if the factors of a model are divided into groups such that each is in exactly one of them, and the factors of a group have the same labels, the combination of the accumulated functions of the groups is the
value of the labeling in the original model. -/
theorem C85_accumulated_model [CommMonoid V] (gm : List (Factor V)) (groups : List (List Nat)) (hp : groups.flatten.Perm (List.range gm.length)) (labels : List Nat → List Nat) (get : Nat → V)
    (h : ∀ g ∈ groups, ∀ i ∈ g, (gm[i]?).bind (fun f => f.eval (labels g)) = some (get i)) :
    ∃ vals : List V, groups.map (fun g => (Accumulated.range (g.map some)).eval (fun a b => a * b) 1 gm (labels g)) = vals.map some ∧ vals.prod = ((List.range gm.length).map get).prod := by
  refine ⟨groups.map (fun g => (g.map get).prod), ?_, ?_⟩
  · rw [List.map_map]
    apply List.map_congr_left
    intro g hg
    exact (C85_accumulated gm g (labels g) get (h g hg)).1
  · rw [← (hp.map get).prod_eq, List.map_flatten, List.prod_flatten, List.map_map]
    rfl

/-! ### scaled views and views with offset -/

/-- C85, ScaledViewFunction: a view of a factor has the shape of the factor when it was made, and its values times the scale, in whatever the model has become; a function made from a shape has this shape and neutral values. -/
theorem C85_scaled [CommRing V] (gm gm' : List (Factor V)) (i : Nat) {f f' : Factor V} (hf : gm[i]? = some f) (hf' : gm'[i]? = some f') (scale neutral : V) (ls : List Nat) (shape : List Nat) :
    (∃ v, Scaled.make gm i scale = some v ∧ v.info = (f.shape.length, f.shape, f.shape.prod) ∧ v.eval (fun a b => a * b) neutral gm' ls = (f'.eval ls).map (fun x => scale * x)) ∧
      (Scaled.ofShape (0 : V) shape).info = (shape.length, shape, shape.prod) ∧ (Scaled.ofShape (0 : V) shape).eval (fun a b => a * b) neutral gm' ls = some neutral := by
  refine ⟨⟨⟨true, i, scale, f.shape, sizeLoop f.shape 1⟩, by simp [Scaled.make, hf], by simp [Scaled.info, sizeLoop_eq], by simp [Scaled.eval, hf']⟩, by simp [Scaled.ofShape, Scaled.info, sizeLoop_eq], rfl⟩

/-- C85, ModelViewFunction: the values are scale times factor plus offset, scale times factor, or the offset; the shape is that of the offset, or of the factor if there is none. -/
theorem C85_modelView [CommRing V] (gm : List (Factor V)) (i : Nat) {f o : Factor V} (hf : gm[i]? = some f) (scale : V) (ls : List Nat) {x y : V} (hx : f.eval ls = some x) (hy : o.eval ls = some y) :
    (ModelView.both i scale o).eval (fun a b => a * b) (fun a b => a + b) gm ls = some (scale * x + y) ∧
      (ModelView.view i scale).eval (fun a b => a * b) (fun a b => a + b) gm ls = some (scale * x) ∧
      (ModelView.only 0 o).eval (fun a b => a * b) (fun a b => a + b) gm ls = some y ∧
      (ModelView.both i scale o).info gm = some (o.shape.length, o.shape, o.shape.prod) ∧ (ModelView.view i scale).info gm = some (f.shape.length, f.shape, f.shape.prod) ∧
      (ModelView.only 0 o).info gm = some (o.shape.length, o.shape, o.shape.prod) := by
  simp [ModelView.both, ModelView.view, ModelView.only, ModelView.eval, ModelView.info, Factor.info, hf, hx, hy]

/-! ### concrete cases -/

/-- A model with two factors of one variable and one of two variables. -/
def sampleModel : List (Factor Int) :=
  [⟨[2], fun ls => ([5, 7] : List Int)[ls.headD 2]?⟩, ⟨[2], fun ls => ([1, -4] : List Int)[ls.headD 2]?⟩, ⟨[2, 3], fun ls => some (ls.length : Int)⟩]

example : sampleModel[0]? = some ⟨[2], fun ls => ([5, 7] : List Int)[ls.headD 2]?⟩ := rfl

example : Results sampleModel.length (fun i => (sampleModel[i]?).bind (fun f => f.eval ((fun i => if i = 2 then [1, 2] else [1]) i))) [7, -4, 2] := by
  refine ⟨rfl, ?_⟩
  intro i hi
  have : i < 3 := hi
  rcases i with _ | _ | _ | i
  · rfl
  · rfl
  · rfl
  · omega

/-- an exponential of integers: the powers of -1 -/
example : ∃ e : Int → Int, e 0 = 1 ∧ (∀ x y, e (x + y) = e x * e y) ∧ e 1 = -1 := by
  refine ⟨fun x => if x % 2 = 0 then 1 else -1, rfl, ?_, rfl⟩
  intro x y
  simp only
  split <;> split <;> split <;> first | rfl | omega

example : (Accumulated.range ([0, 1].map some)).eval (fun a b => a + b) 0 sampleModel [1] = some 3 := rfl

example : ([[1, 0], [2]] : List (List Nat)).flatten.Perm (List.range sampleModel.length) := by decide

end Views
end OpenGM
