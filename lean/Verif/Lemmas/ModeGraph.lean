import Verif.Spec.Mode
import Verif.Lemmas.BPExact
import Verif.Lemmas.EnergySum
/-
Optimal labelings of a forest: how two can be combined, and the invariant of a search that sets the labels of variables one after the other.
-/
namespace OpenGM.Mode
open Spec BP
variable {V : Type} {o : Operation V} {better : V → V → Bool} {P : V → Prop} {p : Problem V}

/-! ### Combining two labelings -/

open scoped Classical in
/-- `y` on `R`, `x` elsewhere. -/
noncomputable def mix (R : Set Nat) (x y : List Nat) : List Nat := (List.range x.length).map (fun v => if v ∈ R then y.getD v 0 else x.getD v 0)

open scoped Classical in
theorem mix_get {R : Set Nat} {x y : List Nat} (hl : y.length = x.length) (v : Nat) : (mix R x y).getD v 0 = if v ∈ R then y.getD v 0 else x.getD v 0 := by
  unfold mix
  by_cases hv : v < x.length
  · simp [List.getD, hv]
  · have h1 : x.getD v 0 = 0 := by simp [List.getD, hv]
    have h2 : y.getD v 0 = 0 := by simp [List.getD, hl, hv]
    rw [h1, h2]
    simp [List.getD, hv]

theorem labeling_get {x : List Nat} : p.Labeling x ↔ x.length = p.numLabels.length ∧ ∀ v, v < p.numLabels.length → x.getD v 0 < p.numLabels.getD v 0 := by
  constructor
  · rintro ⟨h1, h2⟩
    refine ⟨h1, fun v hv => ?_⟩
    have hx : v < x.length := by rw [h1]; exact hv
    have := h2 v _ _ (List.getElem?_eq_getElem hx) (List.getElem?_eq_getElem hv)
    simpa [List.getD, hx, hv] using this
  · rintro ⟨h1, h2⟩
    refine ⟨h1, fun v l n e1 e2 => ?_⟩
    have := h2 v (List.getElem?_eq_some_iff.mp e2).1
    simpa [List.getD, e1, e2] using this

theorem mix_labeling {R : Set Nat} {x y : List Nat} (hx : p.Labeling x) (hy : p.Labeling y) : p.Labeling (mix R x y) := by
  have hl : y.length = x.length := by rw [hx.1, hy.1]
  rw [labeling_get] at *
  refine ⟨by simp [mix, hx.1], fun v hv => ?_⟩
  rw [mix_get hl]
  split
  · exact hy.2 v hv
  · exact hx.2 v hv

/-- Two pairs of labelings that give each term the same two values have the same combined objective. -/
theorem energy_pairs (hm : o.IsCommMonoid) {x y z z' : List Nat} :
    ∀ (ts : List (Term V)), (∀ t ∈ ts, (t.value z = t.value y ∧ t.value z' = t.value x) ∨ (t.value z = t.value x ∧ t.value z' = t.value y)) →
      o.op ((ts.map (fun t => t.value z)).foldl o.op o.neutral) ((ts.map (fun t => t.value z')).foldl o.op o.neutral) =
      o.op ((ts.map (fun t => t.value x)).foldl o.op o.neutral) ((ts.map (fun t => t.value y)).foldl o.op o.neutral)
  | [], _ => rfl
  | t :: ts, h => by
    have ih := energy_pairs hm ts (fun t' h' => h t' (List.mem_cons_of_mem _ h'))
    have e : ∀ u : List Nat, ((t :: ts).map (fun t => t.value u)).foldl o.op o.neutral = o.op (t.value u) ((ts.map (fun t => t.value u)).foldl o.op o.neutral) := by
      intro u
      simp only [List.map_cons, List.foldl_cons, hm.neutral_left]
      have : ∀ (l : List V) (a : V), l.foldl o.op a = o.op a (l.foldl o.op o.neutral) := by
        intro l
        induction l with
        | nil => intro a; simp [hm.comm a, hm.neutral_left]
        | cons b l ih => intro a; simp only [List.foldl_cons, hm.neutral_left]; rw [ih (o.op a b), ih b, hm.assoc]
      exact this _ _
    have swap : ∀ a b c d : V, o.op (o.op a b) (o.op c d) = o.op (o.op a c) (o.op b d) := by
      intro a b c d
      rw [hm.assoc, hm.assoc, ← hm.assoc b c d, hm.comm b c, hm.assoc c b d]
    rw [e, e, e, e, swap, ih, swap (t.value x)]
    rcases h t List.mem_cons_self with ⟨h1, h2⟩ | ⟨h1, h2⟩
    · rw [h1, h2, hm.comm (t.value y)]
    · rw [h1, h2]

theorem value_congr {x z : List Nat} {t : Term V} (h : ∀ v ∈ t.vars, z.getD v 0 = x.getD v 0) : t.value z = t.value x := by
  unfold Term.value restrict
  rw [List.map_congr_left h]

theorem energy_value (hL : OrderedValues o better P) (hP : p.Values P) (hrange : ∀ t ∈ p.terms, ∀ v ∈ t.vars, v < p.numLabels.length) {x : List Nat} (hx : p.Labeling x) :
    P (p.energy o x) := by
  have key : ∀ (l : List V) (a : V), P a → (∀ b ∈ l, P b) → P (l.foldl o.op a) := by
    intro l
    induction l with
    | nil => intro a ha _; exact ha
    | cons b l ih => intro a ha h; exact ih _ (hL.value_op ha (h b List.mem_cons_self)) (fun c hc => h c (List.mem_cons_of_mem _ hc))
  refine key _ _ hL.value_neutral ?_
  intro a ha
  obtain ⟨t, ht, rfl⟩ := List.mem_map.mp ha
  refine hP t ht _ ?_
  have hx' := labeling_get.mp hx
  have : ∀ vs : List Nat, (∀ v ∈ vs, v < p.numLabels.length) → InShape (restrict p.numLabels vs) (restrict x vs) := by
    intro vs
    induction vs with
    | nil => intro _; trivial
    | cons v vs ih =>
      intro h
      exact ⟨hx'.2 v (h v List.mem_cons_self), ih (fun w hw => h w (List.mem_cons_of_mem _ hw))⟩
  exact this _ (hrange t ht)

/-- If every term sees `R` or the rest only, up to variables on which `x` and `y` agree, and `x` on `R` and `y` elsewhere is not better than `y`, then `x` is not better than `y` on `R` and
`x` elsewhere. -/
theorem exchange (hL : OrderedValues o better P) (hP : p.Values P) (hrange : ∀ t ∈ p.terms, ∀ v ∈ t.vars, v < p.numLabels.length) {x y : List Nat} (hx : p.Labeling x)
    (hy : p.Labeling y) (R : Set Nat)
    (hR : ∀ t ∈ p.terms, (∀ v ∈ t.vars, v ∈ R ∨ x.getD v 0 = y.getD v 0) ∨ (∀ v ∈ t.vars, v ∉ R ∨ x.getD v 0 = y.getD v 0))
    (hz' : better (p.energy o (mix R y x)) (p.energy o y) = false) : better (p.energy o x) (p.energy o (mix R x y)) = false := by
  have hl : y.length = x.length := by rw [hx.1, hy.1]
  have hz := mix_labeling (R := R) hx hy
  have hzl' := mix_labeling (R := R) hy hx
  have hE : o.op (p.energy o (mix R x y)) (p.energy o (mix R y x)) = o.op (p.energy o x) (p.energy o y) := by
    refine energy_pairs hL.monoid p.terms ?_
    intro t ht
    rcases hR t ht with h | h
    · left
      constructor
      · refine value_congr fun v hv => ?_
        rw [mix_get hl]
        rcases h v hv with h | h
        · rw [if_pos h]
        · rw [h]; simp
      · refine value_congr fun v hv => ?_
        rw [mix_get hl.symm]
        rcases h v hv with h | h
        · rw [if_pos h]
        · rw [h]; simp
    · right
      constructor
      · refine value_congr fun v hv => ?_
        rw [mix_get hl]
        rcases h v hv with h | h
        · rw [if_neg h]
        · rw [h]; simp
      · refine value_congr fun v hv => ?_
        rw [mix_get hl.symm]
        rcases h v hv with h | h
        · rw [if_neg h]
        · rw [h]; simp
  have px := energy_value hL hP hrange hx
  have py := energy_value hL hP hrange hy
  have pz := energy_value hL hP hrange hz
  have pz' := energy_value hL hP hrange hzl'
  by_contra hb
  rw [Bool.not_eq_false] at hb
  have h1 := hL.keeps pz' px pz hb
  rw [hL.monoid.comm _ (p.energy o (mix R x y)), hE] at h1
  have hne : better (p.energy o y) (p.energy o (mix R y x)) = true ∨ p.energy o y = p.energy o (mix R y x) := by
    by_cases hb2 : better (p.energy o y) (p.energy o (mix R y x)) = true
    · exact Or.inl hb2
    · exact Or.inr (hL.total _ _ (by simpa using hb2) hz')
  rcases hne with h2 | h2
  · have h3 := hL.keeps px py pz' h2
    rw [hL.monoid.comm (p.energy o x) (p.energy o (mix R y x))] at h3
    have := hL.order.trans _ _ _ h1 h3
    rw [hL.order.irrefl] at this
    exact absurd this (by simp)
  · rw [h2, hL.monoid.comm _ (p.energy o x), hL.monoid.comm] at h1
    rw [hL.monoid.comm, hL.order.irrefl] at h1
    exact absurd h1 (by simp)

/-! ### Paths in the forest -/

/-- `b` can be reached from `a` through terms, where all variables after the first satisfy `X`. -/
def Link (S : List (List Nat)) (X : Nat → Prop) : Nat → Nat → Prop :=
  Relation.ReflTransGen (fun a b => X b ∧ ∃ g, a ∈ scopeOf S g ∧ b ∈ scopeOf S g)

variable {S : List (List Nat)}

theorem Link.mono {X Y : Nat → Prop} (h : ∀ v, X v → Y v) {u v : Nat} (hl : Link S X u v) : Link S Y u v := by
  induction hl with
  | refl => exact Relation.ReflTransGen.refl
  | tail _ hc ih => exact Relation.ReflTransGen.tail ih ⟨h _ hc.1, hc.2⟩

theorem Link.last {X : Nat → Prop} {u v : Nat} (hu : X u) (hl : Link S X u v) : X v := by
  cases hl with
  | refl => exact hu
  | tail _ h => exact h.1

theorem Link.symm {X : Nat → Prop} {u v : Nat} (hu : X u) (hl : Link S X u v) : Link S X v u := by
  induction hl with
  | refl => exact Relation.ReflTransGen.refl
  | @tail b c hb hc ih =>
    obtain ⟨_, g, g1, g2⟩ := hc
    exact Relation.ReflTransGen.head ⟨Link.last hu hb, g, g2, g1⟩ ih

theorem Link.step {X : Nat → Prop} {u v w g : Nat} (hl : Link S X u v) (hw : X w) (h1 : v ∈ scopeOf S g) (h2 : w ∈ scopeOf S g) : Link S X u w :=
  Relation.ReflTransGen.tail hl ⟨hw, g, h1, h2⟩

theorem Link.first {X : Nat → Prop} {u v w g : Nat} (hl : Link S X v w) (hv : X v) (h1 : u ∈ scopeOf S g) (h2 : v ∈ scopeOf S g) : Link S X u w :=
  Relation.ReflTransGen.head ⟨hv, g, h1, h2⟩ hl

/-- What is linked to a variable of `f` is on the side of a variable of `f`. -/
theorem side_of_link {X : Nat → Prop} {f u v : Nat} (hf : u ∈ scopeOf S f) (hu : X u) (hl : Link S X u v) :
    ∃ w, w ∈ scopeOf S f ∧ X w ∧ .inl v ∈ side (bipartite S) (.inl w) (.inr f) := by
  induction hl with
  | refl => exact ⟨u, hf, hu, self_mem_side _ _⟩
  | @tail b c hb hc ih =>
    obtain ⟨w, hw, hXw, hs⟩ := ih
    obtain ⟨hXc, g, g1, g2⟩ := hc
    by_cases hgf : g = f
    · subst hgf
      exact ⟨c, g2, hXc, self_mem_side _ _⟩
    · refine ⟨w, hw, hXw, ?_⟩
      have h1 : (.inr g : Nat ⊕ Nat) ∈ side (bipartite S) (.inl w) (.inr f) := by
        refine side_step hs (adj_iff.mpr g1) ?_
        intro he
        rw [Sym2.eq_iff] at he
        simp only [Sum.inl.injEq, Sum.inr.injEq, reduceCtorEq, and_false, false_and, or_false] at he
        exact hgf he.2
      refine side_step h1 (adj_iff'.mpr g2) ?_
      intro he
      rw [Sym2.eq_iff] at he
      simp only [Sum.inl.injEq, Sum.inr.injEq, reduceCtorEq, and_false, false_and, false_or, or_false] at he
      exact hgf he.1

/-- What is linked to another variable of `f` without passing `u` is on the side of `f`, seen from `u`. -/
theorem side_of_avoid {X : Nat → Prop} {f u v w : Nat} (hX : ¬ X u) (hw : w ∈ scopeOf S f) (hXw : X w) (hl : Link S X w v) :
    .inl v ∈ side (bipartite S) (.inr f) (.inl u) := by
  induction hl with
  | refl =>
    refine side_step (self_mem_side _ _) (adj_iff'.mpr hw) ?_
    intro he
    rw [Sym2.eq_iff] at he
    simp only [Sum.inl.injEq, reduceCtorEq, and_false, false_and, or_false, true_and] at he
    exact hX (he ▸ hXw)
  | @tail b c hb hc ih =>
    obtain ⟨hXc, g, g1, g2⟩ := hc
    have hXb := Link.last hXw hb
    have h1 : (.inr g : Nat ⊕ Nat) ∈ side (bipartite S) (.inr f) (.inl u) := by
      refine side_step ih (adj_iff.mpr g1) ?_
      intro he
      rw [Sym2.eq_iff] at he
      simp only [Sum.inl.injEq, Sum.inr.injEq, reduceCtorEq, and_false, false_or] at he
      exact hX (he.1 ▸ hXb)
    refine side_step h1 (adj_iff'.mpr g2) ?_
    intro he
    rw [Sym2.eq_iff] at he
    simp only [Sum.inl.injEq, Sum.inr.injEq, reduceCtorEq, and_false, or_false] at he
    exact hX (he.2 ▸ hXc)

/-! ### The invariant -/

/-- Set, and not one of `K`. -/
def Chosen (K : Set Nat) (conf : Nat → Option Nat) (v : Nat) : Prop := v ∉ K ∧ conf v ≠ none

/-- The invariant of the search: a term with a chosen variable has all variables set, or a variable that waits (`A`), or is still to be visited (`pend`);
chosen variables that are linked without variables of `K` are linked by chosen variables. -/
structure GInv (S : List (List Nat)) (K : Set Nat) (conf : Nat → Option Nat) (A : List Nat) (pend : Nat → Prop) : Prop where
  closure : ∀ v, Chosen K conf v → ∀ g, v ∈ scopeOf S g → (∀ u ∈ scopeOf S g, conf u ≠ none) ∨ (∃ a ∈ A, a ∈ scopeOf S g) ∨ pend g
  conn : ∀ v v', Chosen K conf v → Chosen K conf v' → Link S (· ∉ K) v v' → Link S (Chosen K conf) v v'
  active : ∀ a ∈ A, Chosen K conf a

variable {K : Set Nat} {conf : Nat → Option Nat} {A : List Nat} {pend : Nat → Prop}

/-- No chosen variable behind an unset variable of a term with a chosen variable. -/
theorem GInv.behind (hI : GInv S K conf A pend) (hG : (bipartite S).IsAcyclic) {f u w : Nat} (hu : Chosen K conf u) (huf : u ∈ scopeOf S f) (hwf : w ∈ scopeOf S f)
    (hw : conf w = none) (hwK : w ∉ K) {v : Nat} (hv : Chosen K conf v) : ¬ Link S (fun x => x ∉ K ∧ ¬ (x ∈ scopeOf S f ∧ conf x ≠ none)) w v := by
  intro hl
  have h1 : Link S (· ∉ K) u v := Link.first (hl.mono (fun _ h => h.1)) hwK huf hwf
  obtain ⟨a, a1, a2, a3⟩ := side_of_link huf hu (hI.conn u v hu hv h1)
  obtain ⟨b, b1, b2, b3⟩ := side_of_link hwf ⟨hwK, fun h => h.2 hw⟩ hl
  have hne : a ≠ b := by
    rintro rfl
    exact b2.2 ⟨a1, a2.2⟩
  exact side_disjoint hG (adj_iff.mpr a1) (adj_iff.mpr b1) (by simpa using hne) a3 b3

/-- No chosen variable is linked to an unset one if none of the waiting variables is. -/
theorem GInv.apart (hI : GInv S K conf A pend) (hp : ∀ g, ¬ pend g) {w : Nat} (hw : conf w = none) (hA : ∀ a ∈ A, ¬ Link S (· ∉ K) w a) {v : Nat}
    (hl : Link S (· ∉ K) w v) : conf v = none := by
  induction hl with
  | refl => exact hw
  | @tail b c hb hc ih =>
    obtain ⟨hXc, g, g1, g2⟩ := hc
    by_contra hne
    rcases hI.closure c ⟨hXc, hne⟩ g g2 with h | ⟨a, ha, hag⟩ | h
    · exact h b g1 ih
    · exact hA a ha (Link.step hb (hI.active a ha).1 g1 hag)
    · exact hp g h

theorem GInv.visited (hI : GInv S K conf A pend) {f : Nat} (h : ∀ u ∈ scopeOf S f, conf u ≠ none) : GInv S K conf A (fun g => pend g ∧ g ≠ f) where
  closure v hv g hg := by
    rcases hI.closure v hv g hg with h' | h' | h'
    · exact Or.inl h'
    · exact Or.inr (Or.inl h')
    · by_cases hgf : g = f
      · subst hgf; exact Or.inl h
      · exact Or.inr (Or.inr ⟨h', hgf⟩)
  conn := hI.conn
  active := hI.active

/-- Set `w`. -/
def put (conf : Nat → Option Nat) (w l : Nat) : Nat → Option Nat := fun v => if v = w then some l else conf v

theorem chosen_put {w l v : Nat} : Chosen K (put conf w l) v ↔ (v = w ∧ w ∉ K) ∨ (v ≠ w ∧ Chosen K conf v) := by
  unfold Chosen put
  by_cases h : v = w
  · subst h; simp
  · simp [h]

theorem put_ne {w l v : Nat} (h : conf v ≠ none) : put conf w l v ≠ none := by
  unfold put; split <;> simp_all

theorem GInv.closure_put (hI : GInv S K conf A pend) {w l : Nat} {f : Nat} (hwf : w ∈ scopeOf S f) (v : Nat) (hv : Chosen K (put conf w l) v) (g : Nat) (hg : v ∈ scopeOf S g) :
    (∀ u ∈ scopeOf S g, put conf w l u ≠ none) ∨ (∃ a ∈ w :: A, a ∈ scopeOf S g) ∨ (pend g ∧ g ≠ f) := by
  rcases chosen_put.mp hv with ⟨rfl, _⟩ | ⟨_, hc⟩
  · exact Or.inr (Or.inl ⟨v, List.mem_cons_self, hg⟩)
  · rcases hI.closure v hc g hg with h | ⟨a, ha, hag⟩ | h
    · exact Or.inl (fun u hu => put_ne (h u hu))
    · exact Or.inr (Or.inl ⟨a, List.mem_cons_of_mem _ ha, hag⟩)
    · by_cases hgf : g = f
      · subst hgf; exact Or.inr (Or.inl ⟨w, List.mem_cons_self, hwf⟩)
      · exact Or.inr (Or.inr ⟨h, hgf⟩)

theorem GInv.active_put (hI : GInv S K conf A pend) {w l : Nat} (hwK : w ∉ K) : ∀ a ∈ w :: A, Chosen K (put conf w l) a := by
  intro a ha
  rw [chosen_put]
  by_cases h : a = w
  · exact Or.inl ⟨h, hwK⟩
  · rcases List.mem_cons.mp ha with h' | h'
    · exact absurd h' h
    · exact Or.inr ⟨h, hI.active a h'⟩

theorem chosen_put_of {w l v : Nat} (hw : conf w = none) (h : Chosen K conf v) : Chosen K (put conf w l) v :=
  chosen_put.mpr (Or.inr ⟨by rintro rfl; exact h.2 hw, h⟩)

/-- Setting a variable next to a chosen one. -/
theorem GInv.put_next (hI : GInv S K conf A pend) {f u w l : Nat} (hu : Chosen K conf u) (huf : u ∈ scopeOf S f) (hwf : w ∈ scopeOf S f) (hw : conf w = none) (hwK : w ∉ K) :
    GInv S K (put conf w l) (w :: A) (fun g => pend g ∧ g ≠ f) where
  closure := hI.closure_put hwf
  active := hI.active_put hwK
  conn v v' hv hv' hl := by
    have hm : ∀ a, Chosen K conf a → Chosen K (put conf w l) a := fun a => chosen_put_of hw
    have hcw : Chosen K (put conf w l) w := chosen_put.mpr (Or.inl ⟨rfl, hwK⟩)
    have from_w : ∀ a, Chosen K conf a → Link S (· ∉ K) w a → Link S (Chosen K (put conf w l)) w a := by
      intro a ha hla
      have := hI.conn u a hu ha (Link.first hla hwK huf hwf)
      exact Link.first (this.mono hm) (hm u hu) hwf huf
    rcases chosen_put.mp hv with ⟨rfl, _⟩ | ⟨_, hc⟩ <;> rcases chosen_put.mp hv' with ⟨rfl, _⟩ | ⟨_, hc'⟩
    · exact Relation.ReflTransGen.refl
    · exact from_w v' hc' hl
    · exact (from_w v hc (hl.symm hc.1)).symm hcw
    · exact (hI.conn v v' hc hc' hl).mono hm

/-- Setting a variable that no chosen one is linked to. -/
theorem GInv.put_apart (hI : GInv S K conf A pend) {w l : Nat} (hw : conf w = none) (hwK : w ∉ K) (ha : ∀ v, Link S (· ∉ K) w v → conf v = none) :
    GInv S K (put conf w l) (w :: A) pend where
  closure v hv g hg := by
    rcases chosen_put.mp hv with ⟨rfl, _⟩ | ⟨_, hc⟩
    · exact Or.inr (Or.inl ⟨v, List.mem_cons_self, hg⟩)
    · rcases hI.closure v hc g hg with h | ⟨a, ha, hag⟩ | h
      · exact Or.inl (fun u hu => put_ne (h u hu))
      · exact Or.inr (Or.inl ⟨a, List.mem_cons_of_mem _ ha, hag⟩)
      · exact Or.inr (Or.inr h)
  active := hI.active_put hwK
  conn v v' hv hv' hl := by
    have hm : ∀ a, Chosen K conf a → Chosen K (put conf w l) a := fun a => chosen_put_of hw
    rcases chosen_put.mp hv with ⟨rfl, _⟩ | ⟨_, hc⟩ <;> rcases chosen_put.mp hv' with ⟨rfl, _⟩ | ⟨_, hc'⟩
    · exact Relation.ReflTransGen.refl
    · exact absurd (ha v' hl) hc'.2
    · exact absurd (ha v (hl.symm hc.1)) hc.2
    · exact (hI.conn v v' hc hc' hl).mono hm

/-! ### Setting one label -/

/-- All labels that are set are those of `x`. -/
def Consistent (conf : Nat → Option Nat) (x : List Nat) : Prop := ∀ v l, conf v = some l → x.getD v 0 = l

theorem not_better_trans {better : V → V → Bool} (ho : StrictOrder better) (htot : ∀ a b, better a b = false → better b a = false → a = b) {x y z : V} (h1 : better x y = false)
    (h2 : better y z = false) : better x z = false := by
  cases hxz : better x z with
  | false => rfl
  | true =>
    cases hyx : better y x with
    | true => rw [ho.trans _ _ _ hyx hxz] at h2; cases h2
    | false =>
      have := htot x y h1 hyx
      subst this
      rw [h2] at hxz; cases hxz

/-- Setting one more label: `x` is a best labeling with the labels set so far, `y` is best among those with the labels of `D`. -/
theorem put_best {C : List Nat → Prop} (hL : OrderedValues o better P) (hP : p.Values P) (hrange : ∀ t ∈ p.terms, ∀ v ∈ t.vars, v < p.numLabels.length)
    (D : Nat → Prop) (hD : ∀ v, D v → conf v ≠ none) {x y : List Nat} (hx : p.Best o better C x)
    (hxc : Consistent conf x) (hy : p.Labeling y) (hyc : ∀ v l, D v → conf v = some l → y.getD v 0 = l) (hymin : ∀ u, p.Labeling u →
      (∀ v l, D v → conf v = some l → u.getD v 0 = l) → better (p.energy o u) (p.energy o y) = false) (hyK : ∀ k ∈ K, conf k = some (y.getD k 0))
    (hC : ∀ u, p.Labeling u → Consistent conf u → C u) {w l : Nat} (hw : conf w = none) (hwK : w ∉ K) (hyw : y.getD w 0 = l)
    (hfree : ∀ v, Chosen K conf v → ¬ Link p.scopes (fun u => u ∉ K ∧ ¬ D u) w v) : ∃ z, p.Best o better C z ∧ Consistent (put conf w l) z := by
  have hl : y.length = x.length := by rw [hx.1.1, hy.1]
  have hwD : ¬ D w := fun h => hD w h hw
  have hxyD : ∀ v, D v → x.getD v 0 = y.getD v 0 := by
    intro v hv
    obtain ⟨c, hc⟩ := Option.ne_none_iff_exists'.mp (hD v hv)
    rw [hxc v c hc, hyc v c hv hc]
  have hxyK : ∀ v ∈ K, x.getD v 0 = y.getD v 0 := fun v hv => hxc v _ (hyK v hv)
  have hcmp : better (p.energy o x) (p.energy o (mix {v | Link p.scopes (fun u => u ∉ K ∧ ¬ D u) w v} x y)) = false := by
    refine exchange hL hP hrange hx.1 hy _ ?_ ?_
    · intro t ht
      obtain ⟨g, hg⟩ := List.mem_iff_getElem?.mp ht
      have hsc : scopeOf p.scopes g = t.vars := by simp [scopeOf, Problem.scopes, hg]
      by_cases hex : ∃ u ∈ t.vars, Link p.scopes (fun u => u ∉ K ∧ ¬ D u) w u
      · obtain ⟨u, hu, hlu⟩ := hex
        refine Or.inl fun v hv => ?_
        by_cases hvK : v ∈ K
        · exact Or.inr (hxyK v hvK)
        · by_cases hvD : D v
          · exact Or.inr (hxyD v hvD)
          · exact Or.inl (Link.step hlu ⟨hvK, hvD⟩ (by rw [hsc]; exact hu) (by rw [hsc]; exact hv))
      · refine Or.inr fun v hv => Or.inl fun hm => hex ⟨v, hv, hm⟩
    · refine hymin _ (mix_labeling hy hx.1) ?_
      intro v c hv hc
      rw [mix_get hl.symm]
      split
      · exact hxc v c hc
      · exact hyc v c hv hc
  have hzc : Consistent (put conf w l) (mix {v | Link p.scopes (fun u => u ∉ K ∧ ¬ D u) w v} x y) := by
    intro v c hc
    unfold put at hc
    by_cases hvw : v = w
    · rw [if_pos hvw] at hc
      cases hc
      rw [hvw, mix_get hl, if_pos (show w ∈ {v | Link p.scopes (fun u => u ∉ K ∧ ¬ D u) w v} from Relation.ReflTransGen.refl)]
      exact hyw
    · rw [if_neg hvw] at hc
      have hvR : v ∉ {v | Link p.scopes (fun u => u ∉ K ∧ ¬ D u) w v} := by
        intro hm
        have hX := Link.last (X := fun u => u ∉ K ∧ ¬ D u) ⟨hwK, hwD⟩ hm
        exact hfree v ⟨hX.1, by rw [hc]; simp⟩ hm
      rw [mix_get hl, if_neg hvR]
      exact hxc v c hc
  have hzC : C (mix {v | Link p.scopes (fun u => u ∉ K ∧ ¬ D u) w v} x y) := by
    refine hC _ (mix_labeling hx.1 hy) ?_
    intro v c hc
    refine hzc v c ?_
    unfold put
    rw [if_neg (by rintro rfl; rw [hw] at hc; cases hc)]
    exact hc
  exact ⟨_, ⟨mix_labeling hx.1 hy, hzC, fun u hu hCu => not_better_trans hL.order hL.total (hx.2.2 u hu hCu) hcmp⟩, hzc⟩

end OpenGM.Mode
